import Verif.Spec.Reply
import Verif.Proof.Scroll
/-!
# Printing on the terminal
-/
namespace Readline
open Spec

variable {E : Env} {w : World} {D : Desk} {t : List Char} {n : Nat} {clip : Option (List Char)} {ks : List (List Char)}
  {adv : Rune → Int} {v v' : Vt}

theorem printedColumns_append (a b : List Rune) : printedColumns adv (a ++ b) = printedColumns adv a + printedColumns adv b := by
  induction a with
  | nil => show printedColumns adv b = 0 + _; omega
  | cons r a ih => show adv r + printedColumns adv (a ++ b) = adv r + printedColumns adv a + _; rw [ih]; omega

theorem printedRow_snoc {r : Rune} {x : Int} : ∀ {a : List Rune} {start : Int}, (∀ r ∈ a, 0 ≤ adv r) →
    printedRow adv (a ++ [r]) start x =
      if start + printedColumns adv a ≤ x ∧ x < start + printedColumns adv a + adv r then some (r, x - (start + printedColumns adv a))
      else printedRow adv a start x
  | [], start, _ => by
    show (if start ≤ x ∧ x < start + adv r then some (r, x - start) else none) = if start + 0 ≤ x ∧ x < start + 0 + adv r then some (r, x - (start + 0)) else none
    rw [Int.add_zero]
  | q :: a, start, h => by
    have ih := printedRow_snoc (r := r) (x := x) (a := a) (start := start + adv q) fun r hr => h r (by simp [hr])
    have hq := h q (by simp)
    have hcol : ∀ {a : List Rune}, (∀ r ∈ a, 0 ≤ adv r) → 0 ≤ printedColumns adv a := by
      intro a ha
      induction a with
      | nil => exact Int.le_refl 0
      | cons r a ih =>
        have := ih fun r hr => ha r (by simp [hr])
        have := ha r (by simp)
        show 0 ≤ adv r + printedColumns adv a
        omega
    have hc := hcol fun r hr => h r (List.mem_cons_of_mem _ hr)
    show (if start ≤ x ∧ x < start + adv q then some (q, x - start) else printedRow adv (a ++ [r]) (start + adv q) x) =
      if start + (adv q + printedColumns adv a) ≤ x ∧ x < start + (adv q + printedColumns adv a) + adv r then
        some (r, x - (start + (adv q + printedColumns adv a)))
      else if start ≤ x ∧ x < start + adv q then some (q, x - start) else printedRow adv a (start + adv q) x
    rw [ih, show start + (adv q + printedColumns adv a) = start + adv q + printedColumns adv a by omega]
    by_cases h1 : start ≤ x ∧ x < start + adv q
    · rw [if_pos h1, if_neg (by omega), if_pos h1]
    · rw [if_neg h1, if_neg h1]

theorem newline_clear (hr : v.row < v.height) (h : Clear v) : Clear v.newline ∧ ∀ x, v.newline.cells v.newline.row x = none := by
  unfold Vt.newline
  split
  · exact ⟨fun y hy => h y (by have : v.row + 1 < y := hy; omega), fun x => h _ (by show v.row < v.row + 1; omega) x⟩
  · refine ⟨fun y hy x => ?_, fun x => ?_⟩
    · have hy : v.row < y := hy
      show (if y < v.height - 1 then v.cells (y + 1) x else none) = none
      rw [if_neg (by omega)]
    · show (if v.row < v.height - 1 then v.cells (v.row + 1) x else none) = none
      rw [if_neg (by omega)]

theorem level_clear (h : Level v v') (hc : Clear v) : Clear v' := by
  intro y hy x
  rw [h.row] at hy
  rw [h.others y (by omega)]
  exact hc y hy x

theorem base_clear (S : Sign) (hr : v.row < v.height) (h : Clear v) : Clear (S.base v) := by
  unfold Sign.base
  split
  · exact (newline_clear hr h).1
  · exact h

theorem Spec.Above.lifted {rows : List (List Rune)} {d e : Int} (h : Above adv v d rows) (hl : Lifted v v' e) (hd : rows.length ≤ d + 1) :
    Above adv v' (e + d) rows := by
  induction rows generalizing d with
  | nil => trivial
  | cons row rows ih =>
    rw [List.length_cons] at hd
    refine ⟨fun x => ?_, ?_⟩
    · rw [hl d (by omega)]; exact h.1 x
    · rw [show e + d - 1 = e + (d - 1) by omega]; exact ih h.2 (by omega)

theorem Spec.Above.lift {S : Sign} {rows : List (List Rune)} {d e : Int} (h : Above adv v d rows) (hl : Raised S v v' e) (hd : rows.length ≤ d) :
    Above adv v' (e + d) rows := by
  induction rows generalizing d with
  | nil => trivial
  | cons row rows ih =>
    rw [List.length_cons] at hd
    refine ⟨fun x => ?_, ?_⟩
    · rw [hl d (by omega) (.inr (by omega))]; exact h.1 x
    · rw [show e + d - 1 = e + (d - 1) by omega]; exact ih h.2 (by omega)

theorem Spec.Dialogue.lift {S : Sign} {C : Cfg} {rooms : Int → Prop} {v0 : Vt} {ps : List Page} {d e : Int} (h : Dialogue S C adv rooms v0 v d ps)
    (hl : Raised S v v' e) (hd : 1 - S.drop ≤ d) (hw : v'.width = v.width) : Dialogue S C adv rooms v0 v' (e + d) ps := by
  have hS := drop_range S
  induction ps generalizing d with
  | nil =>
    have := Raised.trans h hl (by omega)
    show Raised S v0 v' (e + d - 1 + S.drop)
    rw [show e + d - 1 + S.drop = e + (d - 1 + S.drop) by omega]
    exact this
  | cons p ps ih =>
    obtain ⟨h0, rows, h1, h2, ⟨room, h3, h4⟩, h5⟩ := h
    refine ⟨fun hs => by rw [hl d (by omega) (.inl hs)]; exact h0 hs, rows, by rw [hw]; exact h1, ?_, ⟨room, h3, ?_⟩, ?_⟩
    · rw [show e + d + (rows.length : Int) - 1 + S.drop = e + (d + rows.length - 1 + S.drop) by omega]
      exact h2.lift hl (by omega)
    · have e1 := hl (d + rows.length + S.drop) (by omega) (.inr (by omega))
      unfold RowShows Sign.At at h4 ⊢
      rw [show e + d + (rows.length : Int) + S.drop = e + (d + rows.length + S.drop) by omega, e1]
      exact h4
    · rw [show e + d + (rows.length : Int) + 1 + S.drop = e + (d + rows.length + 1 + S.drop) by omega]
      exact ih h5 (by omega)

/-- **Printing**: the rest of a text behind `cur` at the beginning of a row. -/
theorem prints (rs : List Rune) : ∀ {v : Vt} {cur : List Rune}, (∀ r ∈ cur, 0 ≤ adv r) →
    (∀ r ∈ rs, 0x20 ≤ r ∧ ¬ (0x7F ≤ r ∧ r ≤ 0x9F) ∧ 0 ≤ adv r ∧ adv r ≤ v.width) → v.mode = .ground → v.row < v.height → Clear v →
    v.col = printedColumns adv cur → v.col ≤ v.width → (∀ x, v.cells v.row x = printedRow adv cur 0 x) →
    ∃ rows, rows ≠ [] ∧ Folded adv v.width (cur ++ rs) rows ∧ (v.feed adv rs).mode = .ground ∧ (v.feed adv rs).row < (v.feed adv rs).height ∧
      Clear (v.feed adv rs) ∧ Above adv (v.feed adv rs) (rows.length - 1) rows ∧
      ∀ k, 1 ≤ k → (v.feed adv rs).cells ((v.feed adv rs).row - (rows.length - 1 + k)) = v.cells (v.row - k) := by
  induction rs with
  | nil =>
    intro v cur hcur _ hm hr hc hcol hfit hrow
    refine ⟨[cur], by simp, by rw [List.append_nil]; exact .last (by rw [← hcol]; exact hfit), hm, hr, hc, ⟨fun x => ?_, trivial⟩, fun k hk => ?_⟩
    · show v.cells (v.row - (1 - 1)) x = _
      rw [show v.row - (1 - 1) = v.row by omega]
      exact hrow x
    · show v.cells (v.row - (1 - 1 + k)) = _
      rw [show v.row - (1 - 1 + k) = v.row - k by omega]
  | cons r rs ih =>
    intro v cur hcur hrs hm hr hc hcol hfit hrow
    obtain ⟨h1, h2, h3, h4⟩ := hrs r (by simp)
    have e : v.receive adv r = v.print (adv r) r := by
      unfold Vt.receive
      rw [hm]
      dsimp only
      rw [if_neg (by omega), if_neg (by omega), if_neg (by omega), if_neg (by omega), if_neg (by omega)]
    rw [feed_cons, e]
    unfold Vt.print
    by_cases hf : v.col + adv r ≤ v.width
    · rw [if_pos hf]
      obtain ⟨rows, g0, g1, g2, g3, g4, g5, g6⟩ := ih (v := v.put (adv r) r) (cur := cur ++ [r])
        (by intro q hq; rcases List.mem_append.mp hq with hq | hq
            · exact hcur q hq
            · rw [List.mem_singleton] at hq; rw [hq]; exact h3)
        (fun q hq => hrs q (by simp [hq])) hm hr
        (fun y hy x => by
          have hy : v.row < y := hy
          show (if y = v.row ∧ v.col ≤ x ∧ x < v.col + adv r then some (r, x - v.col) else v.cells y x) = none
          rw [if_neg (by omega)]
          exact hc y hy x)
        (by rw [printedColumns_append]; show v.col + adv r = printedColumns adv cur + (adv r + 0); omega)
        hf
        (fun x => by
          rw [printedRow_snoc hcur, Int.zero_add, ← hcol]
          show (if v.row = v.row ∧ v.col ≤ x ∧ x < v.col + adv r then some (r, x - v.col) else v.cells v.row x) = _
          rw [hrow x]
          by_cases hx : v.col ≤ x ∧ x < v.col + adv r
          · rw [if_pos ⟨rfl, hx⟩, if_pos hx]
          · rw [if_neg (fun h => hx h.2), if_neg hx])
      refine ⟨rows, g0, by rw [List.append_assoc] at g1; exact g1, g2, g3, g4, g5, fun k hk => ?_⟩
      rw [g6 k hk]
      funext x
      show (if v.row - k = v.row ∧ v.col ≤ x ∧ x < v.col + adv r then some (r, x - v.col) else v.cells (v.row - k) x) = _
      rw [if_neg (by omega)]
    · rw [if_neg hf]
      obtain ⟨c1, c2⟩ := newline_clear hr hc
      have hcol0 := newline_col v
      have hw0 := newline_width v
      obtain ⟨rows, g0, g1, g2, g3, g4, g5, g6⟩ := ih (v := v.newline.put (adv r) r) (cur := [r])
        (by intro q hq; rw [List.mem_singleton] at hq; rw [hq]; exact h3)
        (fun q hq => by show _ ∧ _ ∧ _ ∧ adv q ≤ v.newline.width; rw [hw0]; exact hrs q (by simp [hq]))
        (by show v.newline.mode = _; rw [newline_mode]; exact hm) (newline_row v hr)
        (fun y hy x => by
          have hy : v.newline.row < y := hy
          show (if y = v.newline.row ∧ v.newline.col ≤ x ∧ x < v.newline.col + adv r then some (r, x - v.newline.col) else v.newline.cells y x) = none
          rw [if_neg (by omega)]
          exact c1 y hy x)
        (by show v.newline.col + adv r = adv r + 0; omega)
        (by show v.newline.col + adv r ≤ v.newline.width; omega)
        (fun x => by
          show (if v.newline.row = v.newline.row ∧ v.newline.col ≤ x ∧ x < v.newline.col + adv r then some (r, x - v.newline.col) else v.newline.cells v.newline.row x) =
            if 0 ≤ x ∧ x < 0 + adv r then some (r, x - 0) else none
          rw [c2 x, hcol0]
          by_cases hx : 0 ≤ x ∧ x < 0 + adv r
          · rw [if_pos ⟨rfl, hx⟩, if_pos hx]
          · rw [if_neg (fun h => hx h.2), if_neg hx])
      have g1 : Folded adv v.newline.width (r :: rs) rows := g1
      rw [hw0] at g1
      have hup : ∀ k, 1 ≤ k → ((v.newline.put (adv r) r).feed adv rs).cells (((v.newline.put (adv r) r).feed adv rs).row - (rows.length - 1 + k)) =
          v.cells (v.row - (k - 1)) := by
        intro k hk
        rw [g6 k hk]
        have := newline_lifted hr (k - 1) (by omega)
        rw [← this]
        funext x
        show (if v.newline.row - k = v.newline.row ∧ v.newline.col ≤ x ∧ x < v.newline.col + adv r then some (r, x - v.newline.col)
          else v.newline.cells (v.newline.row - k) x) = _
        rw [if_neg (by omega), show v.newline.row - (1 + (k - 1)) = v.newline.row - k by omega]
      have hlen : ((cur :: rows).length : Int) = rows.length + 1 := by simp
      refine ⟨cur :: rows, by simp, .fold (by rw [← hcol]; exact hfit) (by rw [← hcol]; omega) g1, g2, g3, g4, ⟨fun x => ?_, ?_⟩, fun k hk => ?_⟩
      · have := hup 1 (by omega)
        rw [hlen, show (rows.length : Int) + 1 - 1 = rows.length - 1 + 1 by omega, this, show v.row - (1 - 1) = v.row by omega]
        exact hrow x
      · rw [hlen, show (rows.length : Int) + 1 - 1 - 1 = rows.length - 1 by omega]
        exact g5
      · rw [hlen, show (rows.length : Int) + 1 - 1 + k = rows.length - 1 + (k + 1) by omega, hup (k + 1) (by omega),
          show v.row - (k + 1 - 1) = v.row - k by omega]

/-- **A printed line**, from an empty row with nothing below it on: the rows it takes are above the cursor, which is at the
beginning of an empty row. -/
theorem prints_line {rs : List Rune} (hrs : ∀ r ∈ rs, 0x20 ≤ r ∧ ¬ (0x7F ≤ r ∧ r ≤ 0x9F) ∧ 0 ≤ adv r ∧ adv r ≤ v.width)
    (hm : v.mode = .ground) (hr : v.row < v.height) (hc : Clear v) (hcol : v.col = 0) (hw : 0 ≤ v.width) (hrow : ∀ x, v.cells v.row x = none) :
    ∃ rows, Folded adv v.width rs rows ∧ (v.feed adv (rs ++ [0x0A])).mode = .ground ∧
      (v.feed adv (rs ++ [0x0A])).row < (v.feed adv (rs ++ [0x0A])).height ∧ Clear (v.feed adv (rs ++ [0x0A])) ∧
      (v.feed adv (rs ++ [0x0A])).col = 0 ∧ (∀ x, (v.feed adv (rs ++ [0x0A])).cells (v.feed adv (rs ++ [0x0A])).row x = none) ∧
      Above adv (v.feed adv (rs ++ [0x0A])) rows.length rows ∧
      ∀ k, 1 ≤ k → (v.feed adv (rs ++ [0x0A])).cells ((v.feed adv (rs ++ [0x0A])).row - (rows.length + k)) = v.cells (v.row - k) := by
  obtain ⟨rows, g0, g1, g2, g3, g4, g5, g6⟩ := prints rs (v := v) (cur := []) (by simp) hrs hm hr hc hcol (by omega) hrow
  have e : v.feed adv (rs ++ [0x0A]) = (v.feed adv rs).newline := by
    rw [feed_append, feed_cons, feed_nil]
    unfold Vt.receive
    rw [g2]
    rfl
  have hl := newline_lifted g3
  rw [e]
  obtain ⟨c1, c2⟩ := newline_clear g3 g4
  refine ⟨rows, g1, by rw [newline_mode]; exact g2, newline_row _ g3, c1, newline_col _, c2, ?_, fun k hk => ?_⟩
  · have := g5.lifted hl (by omega)
    rw [show (1 : Int) + (rows.length - 1) = rows.length by omega] at this
    exact this
  · rw [← g6 k hk, ← hl _ (by
      have : 0 < rows.length := List.length_pos_iff.mpr g0
      omega)]
    rw [show (1 : Int) + (rows.length - 1 + k) = rows.length + k by omega]

end Readline
