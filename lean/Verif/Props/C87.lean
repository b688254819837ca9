import Verif.Proof.Glass
import Verif.Props.C86
/-!
# C87: the terminal shows the line in the colours of the colouring

A terminal with a pen that receives the bytes (`Spec/Glass`), and the colouring of the editor.

* `C87_partial`: whenever a key is awaited, the terminal shows the line (as in C58), and every character of the line that is seen was
  written with a pen that was last given the colour the colouring has for it in the present line.
* `C87_pens`: if every colour sets all of the pen, this determines the pen.
* `C87_page_partial`: the same with the page of the textbook (C80).
* `C87_vimBatch_partial`, `C87_sgr_partial`, `C87_symbol_partial` (`C87_quoted_partial`): `VimBatch` and the two programs of test/ on a usual terminal.
* `C87_program_partial`: what these programs read and say, and the rows in the end.
* `C87_refuted_left`: the colour is not reset when `ReadLine` returns: what the program prints afterwards is bold, or white on black.

Missing for the full statement: what is missing in C58 and C72 (lines with tabs and joined characters, colourings that look at the cursor
or at the order of characters); the colour of predictions.
-/
namespace Readline
open Spec

variable {E : Env} {w : World} {s : St} {adv : Rune → Int} {P : Type} {ren : List Nat → P → P} {g : Glass P}

theorem Spec.Glows.mono {C : Cfg} {paint paint' : Nat → P → Prop} {top room : Int} {text : List Rune} {cursor : Nat}
    {hint : List Rune} (h : Glows C adv paint g top room text cursor hint) (hp : ∀ i p, i < text.length → paint i p → paint' i p) :
    Glows C adv paint' g top room text cursor hint := by
  obtain ⟨h0, away, left, right, rest, more, h1, h2, h3, h4, h5, h6, h7, h8⟩ := h
  refine ⟨h0, away, left, right, rest, more, h1, h2, h3, h4, h5, h6, h7, fun j r x hj l1 l2 => hp _ _ ?_ (h8 j r x hj l1 l2)⟩
  have := (List.getElem?_eq_some_iff.mp hj).1
  rw [h1]
  simp only [List.length_append] at this ⊢
  omega

theorem Spec.Glows.displays {C : Cfg} {paint : Nat → P → Prop} {top room : Int} {text : List Rune} {cursor : Nat}
    {hint : List Rune} (h : Glows C adv paint g top room text cursor hint) :
    Displays C adv g.vt top room text cursor hint := by
  obtain ⟨h0, away, left, right, rest, more, h1, h2, h3, h4, h5, h6, h7, -⟩ := h
  exact ⟨h0, away, left, right, rest, more, h1, h2, h3, h4, h5, h6, h7⟩

theorem plain_told {C : Cfg} {r : Rune} (h : Plain C r) : toldFor C (rune2moji C r 0) = [r] := by
  rcases plain_moji h with ⟨-, e⟩ | ⟨-, -, e | e⟩ | ⟨-, -, e⟩ <;> rw [e] <;> rfl

theorem plainUnits_told {C : Cfg} {rs : List Rune} (h : ∀ r ∈ rs, Plain C r) :
    (plainUnits C rs).flatMap (toldFor C) = rs := by
  induction rs with
  | nil => rfl
  | cons r rs ih =>
    show toldFor C (rune2moji C r 0) ++ (plainUnits C rs).flatMap (toldFor C) = _
    rw [plain_told (h r (by simp)), ih fun x hx => h x (by simp [hx])]
    rfl

theorem layout_some {C : Cfg} (a : List Moji) (m : Moji) (b : List Moji) (top x : Int) (hw : ∀ m : Moji, 0 ≤ m.width C)
    (h1 : top + columns C a ≤ x) (h2 : x < top + columns C a + m.width C) : layout C (a ++ m :: b) top x ≠ none := by
  induction a generalizing top with
  | nil =>
    show (if top ≤ x ∧ x < top + m.width C then some (m, x - top) else _) ≠ none
    have h1 : top + 0 ≤ x := h1
    have h2 : x < top + 0 + m.width C := h2
    rw [if_pos (by omega)]
    exact Option.some_ne_none _
  | cons n a ih =>
    show (if top ≤ x ∧ x < top + n.width C then some (n, x - top) else layout C (a ++ m :: b) (top + n.width C) x) ≠ none
    have h1 : top + (n.width C + columns C a) ≤ x := h1
    have h2 : x < top + (n.width C + columns C a) + m.width C := h2
    split
    · exact Option.some_ne_none _
    · exact ih _ (by omega) (by omega)

/-- The row shows the line in its colours, so does the screen. -/
theorem Spec.Shows.glows {t : Tint} {Q : Nat → Prop} (h : Shows E s t.row) (hT : Tinted E s t) (hm : Mirrors adv t.row g.vt)
    (hG : Glazed ren t g) (hw : ∀ m : Moji, 0 ≤ m.width E.cfg)
    (hp : ∀ r, Q r → Plain E.cfg r ∧ isScalar r = true) (hu : ∀ m ∈ s.mojis, ∃ r, Q r ∧ m = rune2moji E.cfg r 0)
    (hx : ∀ m ∈ s.suffixList, ∃ r, Q r ∧ m = rune2moji E.cfg r 0) :
    Glows E.cfg adv (Hued ren E.coloring (runesOf s.text)) g s.topColumn s.viewWidth (runesOf s.text) s.cursor.toNat
      (runesOf (lineText s.suffixList)) := by
  obtain ⟨rs, e1, p1⟩ := plainUnits_of hu
  obtain ⟨hs, e2, p2⟩ := plainUnits_of hx
  have t1 : runesOf s.text = rs := by
    have : s.text = lineText s.mojis := by
      show cell2string s.buf = _
      rw [cell2string_eq]
      unfold lineText St.mojis
      rw [List.flatMap_map, List.flatMap_map]
      congr 1
      funext c
      exact Moji.norm_write _
    rw [this, e1, plainUnits_text fun r hr => (hp r (p1 r hr)).2]
  have t2 : runesOf (lineText s.suffixList) = hs := by rw [e2, plainUnits_text fun r hr => (hp r (p2 r hr)).2]
  rw [t1, t2]
  obtain ⟨right, pred, c1, c2, c3, c4, -, c6⟩ := h.cells
  have l0 := h.low
  have l1 := h.mid
  have l2 := h.high
  have hlen : s.len.toNat = rs.length := by
    have : s.mojis.length = rs.length := by rw [e1]; simp [plainUnits]
    unfold St.mojis at this
    rw [List.length_map] at this
    unfold St.len
    omega
  have hb1 : s.between s.viewStart s.cursor = plainUnits E.cfg ((rs.take s.cursor.toNat).drop s.viewStart.toNat) := by
    unfold St.between
    rw [e1]
    simp [plainUnits, List.map_take, List.map_drop]
  have hb2 : s.between s.cursor s.len = plainUnits E.cfg (rs.drop s.cursor.toNat) := by
    unfold St.between
    have hl : (plainUnits E.cfg rs).length = rs.length := by simp [plainUnits]
    rw [e1, hlen, ← hl, List.take_length]
    simp [plainUnits, List.map_drop]
  rw [hb2] at c1 c6
  obtain ⟨n, rfl⟩ := prefix_map c1
  have hpred : ∃ more, pred = plainUnits E.cfg more ∧ (more = [] ∨ s.cursor = s.len ∧ more <+: hs) := by
    rcases c4 with rfl | ⟨c4, c5⟩
    · exact ⟨[], rfl, Or.inl rfl⟩
    · rw [e2] at c5
      obtain ⟨k, rfl⟩ := prefix_map c5
      exact ⟨_, rfl, Or.inr ⟨c4, List.take_prefix _ _⟩⟩
  obtain ⟨more, rfl, hmore⟩ := hpred
  have hall : s.between s.viewStart s.cursor ++ ((rs.drop s.cursor.toNat).take n).map (fun r => rune2moji E.cfg r 0) ++ plainUnits E.cfg more =
      plainUnits E.cfg ((rs.take s.cursor.toNat).drop s.viewStart.toNat ++ (rs.drop s.cursor.toNat).take n ++ more) := by
    rw [hb1]
    simp [plainUnits]
  rw [hall] at c2 c3
  have hmem : ∀ r ∈ (rs.take s.cursor.toNat).drop s.viewStart.toNat ++ (rs.drop s.cursor.toNat).take n ++ more, Q r := by
    intro r hr
    rcases List.mem_append.mp hr with hr | hr
    · rcases List.mem_append.mp hr with hr | hr
      · exact p1 r (List.mem_of_mem_take (List.mem_of_mem_drop hr))
      · exact p1 r (List.mem_of_mem_drop (List.mem_of_mem_take hr))
    · rcases hmore with rfl | ⟨-, hm'⟩
      · cases hr
      · exact p2 r (hm'.subset hr)
  rw [plainUnits_columns fun r hr => (hp r (hmem r hr)).1] at c2
  have htake : rs.take s.viewStart.toNat = (rs.take s.cursor.toNat).take s.viewStart.toNat := by
    rw [List.take_take, Nat.min_eq_left (by omega)]
  have hsplit : rs = rs.take s.viewStart.toNat ++ (rs.take s.cursor.toNat).drop s.viewStart.toNat ++ (rs.drop s.cursor.toNat).take n ++
      (rs.drop s.cursor.toNat).drop n := by
    rw [htake, List.take_append_drop, List.append_assoc, List.take_append_drop, List.take_append_drop]
  refine ⟨hm.mode, rs.take s.viewStart.toNat, (rs.take s.cursor.toNat).drop s.viewStart.toNat, (rs.drop s.cursor.toNat).take n,
    (rs.drop s.cursor.toNat).drop n, more, hsplit, ?_, ?_, c2, ?_, ?_, fun x hx' => ?_, fun j r x hj x1 x2 => ?_⟩
  · rw [htake, List.take_append_drop, List.length_take]
    omega
  · rcases hmore with rfl | ⟨a, b⟩
    · exact Or.inl rfl
    · refine Or.inr ⟨?_, b⟩
      rw [List.take_append_drop]
      exact List.drop_eq_nil_of_le (by rw [a]; omega)
  · intro k r tail hk hrest
    have hr : r ∈ rs := List.mem_of_mem_drop (List.mem_of_mem_drop (by rw [hrest]; simp))
    have hsame : SameWidths E s := by
      refine ⟨k, fun m hm => ?_⟩
      rw [e1] at hm
      obtain ⟨q, hq, rfl⟩ := List.mem_map.mp hm
      rw [(plain_columns (hp q (p1 q hq)).1).2.1]
      exact hk q hq
    have := c6 hsame (rune2moji E.cfg r 0) (plainUnits E.cfg tail) (by
      have e : rs.drop s.cursor.toNat = (rs.drop s.cursor.toNat).take n ++ r :: tail := by rw [← hrest, List.take_append_drop]
      unfold plainUnits
      rw [← List.map_cons (f := fun r => rune2moji E.cfg r 0), ← List.map_append, ← e])
    rw [hb1, (plain_columns (hp r (p1 r hr)).1).2.1] at this
    have e : plainUnits E.cfg ((rs.take s.cursor.toNat).drop s.viewStart.toNat) ++ ((rs.drop s.cursor.toNat).take n).map (fun r => rune2moji E.cfg r 0) =
        plainUnits E.cfg ((rs.take s.cursor.toNat).drop s.viewStart.toNat ++ (rs.drop s.cursor.toNat).take n) := by
      unfold plainUnits
      rw [List.map_append]
    rw [e, plainUnits_columns fun r hr => (hp r (hmem r (List.mem_append_left _ hr))).1] at this
    exact this
  · rw [hm.col, h.col, hb1, plainUnits_columns fun r hr => (hp r (hmem r (by simp [hr]))).1]
  · obtain ⟨a, b⟩ := plainUnits_layout (adv := adv) (fun r hr => (hp r (hmem r hr)).1) (fun r hr => (hp r (hmem r hr)).2) s.topColumn x
    rw [← b, ← c3 x hx']
    rcases hm.cells x with h' | h'
    · rw [c3 x hx'] at h'
      exact absurd h' a
    · exact h'
  · -- the colour of the character
    generalize hvis : (rs.take s.cursor.toNat).drop s.viewStart.toNat ++ (rs.drop s.cursor.toNat).take n = vis at *
    have hvl : s.viewStart.toNat ≤ rs.length := by omega
    have hal : (rs.take s.viewStart.toNat).length = s.viewStart.toNat := by rw [List.length_take]; omega
    have hrs : rs = rs.take s.viewStart.toNat ++ (vis ++ (rs.drop s.cursor.toNat).drop n) := by
      rw [← List.append_assoc, ← hvis, ← List.append_assoc]; exact hsplit
    have hjl : j < vis.length := (List.getElem?_eq_some_iff.mp hj).1
    have hi : rs[s.viewStart.toNat + j]? = some r := by
      rw [hrs, List.getElem?_append_right (by rw [hal]; omega), hal, Nat.add_sub_cancel_left, List.getElem?_append_left hjl]
      exact hj
    have hr : Q r := p1 r (List.mem_of_getElem? hi)
    have hmi : s.mojis[s.viewStart.toNat + j]? = some (rune2moji E.cfg r 0) := by
      rw [e1]
      unfold plainUnits
      rw [List.getElem?_map, hi]
      rfl
    have hwr := (plain_columns (hp r hr).1).2.1
    have hbt : s.between s.viewStart ((s.viewStart.toNat + j : Nat) : Int) = plainUnits E.cfg (vis.take j) := by
      unfold St.between
      rw [e1]
      unfold plainUnits
      rw [← List.map_take, ← List.map_drop]
      congr 1
      rw [show (((s.viewStart.toNat + j : Nat) : Int)).toNat = s.viewStart.toNat + j by omega]
      rw [hrs, List.take_append, hal, Nat.add_sub_cancel_left, List.take_of_length_le (by rw [hal]; omega),
        List.drop_append_of_le_length (by rw [hal]; omega), List.drop_eq_nil_of_le (by rw [hal]; omega), List.nil_append,
        List.take_append_of_le_length (by omega)]
    have hplace : place E s ((s.viewStart.toNat + j : Nat) : Int) = s.topColumn + textColumns E.cfg (vis.take j) := by
      unfold place
      rw [hbt, plainUnits_columns fun q hq => (hp q (hmem q (List.mem_append_left _ (List.mem_of_mem_take hq)))).1]
    have hne : t.row.cells x ≠ none := by
      have hcol0 : 0 ≤ columns E.cfg (plainUnits E.cfg (vis.take j)) := Wide0.columns (fun m _ => hw m)
      have hc := plainUnits_columns (C := E.cfg) (rs := vis.take j)
        fun q hq => (hp q (hmem q (List.mem_append_left _ (List.mem_of_mem_take hq)))).1
      rw [c3 x (by omega)]
      have hv : vis ++ more = vis.take j ++ r :: (vis.drop (j + 1) ++ more) := by
        have : vis = vis.take j ++ r :: vis.drop (j + 1) := by
          obtain ⟨hl, he⟩ := List.getElem?_eq_some_iff.mp hj
          rw [← he, List.getElem_cons_drop hl, List.take_append_drop]
        conv => lhs; rw [this]
        simp
      rw [hv]
      unfold plainUnits
      rw [List.map_append, List.map_cons]
      exact layout_some _ _ _ _ _ hw (by rw [show (vis.take j).map (fun r => rune2moji E.cfg r 0) = plainUnits E.cfg (vis.take j) from rfl, hc]; exact x1)
        (by rw [show (vis.take j).map (fun r => rune2moji E.cfg r 0) = plainUnits E.cfg (vis.take j) from rfl, hc, hwr]; exact x2)
    have hink := hT.inks (s.viewStart.toNat + j) (rune2moji E.cfg r 0) x (by omega) hmi (by rw [hplace]; exact x1)
      (by rw [hplace, hwr]; exact x2) hne
    have hhue : colourOf E.cfg E.coloring s.mojis (s.viewStart.toNat + j) = hue E.coloring rs (s.viewStart.toNat + j) := by
      unfold colourOf hue
      rw [e1]
      have : (plainUnits E.cfg rs).take (s.viewStart.toNat + j + 1) = plainUnits E.cfg (rs.take (s.viewStart.toNat + j + 1)) := by
        unfold plainUnits; rw [List.map_take]
      rw [this, plainUnits_told fun q hq => (hp q (p1 q (List.mem_of_mem_take hq))).1]
    rw [hhue] at hink
    rw [hal]
    exact hG.inks x _ hink

/-! ## What was written before -/

theorem reachable_wrote (hb : BuiltinKeys E) (h : Reachable E w s) :
    ∃ s0, Reachable E { w with out := [] } s0 ∧ s = s0.wrote w.out := by
  induction h with
  | @start s h =>
    have h1 := startSt_io (E := E) { w with out := [] } w.input w.out
    have h2 := startSt_io (E := E) { w with out := [] } w.input []
    have e : ({ ({ w with out := [] } : World) with input := w.input, out := w.out ++ ({ w with out := [] } : World).out } : World) = w := by
      simp
    rw [e, h] at h1
    cases h0 : startSt E { w with out := [] } with
    | error x => rw [h0] at h1; cases h1
    | ok s0 =>
      rw [h0] at h1
      have h2 : startSt E { w with out := [] } = _ := h2
      rw [h0] at h2
      refine ⟨s0, .start h0, ?_⟩
      have a : s = s0.io w.input w.out := by injection h1
      have b : s0 = s0.io w.input [] := by injection h2
      have c : s0.input = w.input := by rw [b]; rfl
      rw [a]
      unfold St.wrote
      rw [c]
  | @step s s' _ hs ih =>
    obtain ⟨s0, h0, rfl⟩ := ih
    rw [step_out hb] at hs
    cases h1 : step E s0 with
    | error x => rw [h1] at hs; cases hs
    | ok a =>
      obtain ⟨a, o⟩ := a
      rw [h1] at hs
      injection hs with hs
      obtain ⟨e1, e2⟩ := Prod.ext_iff.mp hs
      obtain rfl : o = none := e2
      exact ⟨a, .step h0 h1, e1.symm⟩

/-! ## The property -/

theorem fresh_glows {Q : Nat → Prop} (hw0 : w.out = []) (hb : BuiltinKeys E) (ho : Ordinary Q E w) (hx : Plainly Q E w)
    (hA : AgreesPlain E.cfg adv) (hw : ∀ m : Moji, 0 ≤ m.width E.cfg) (hc1 : Sgr E.predictColor.1)
    (hc2 : Sgr E.predictColor.2) (hpw : 0 ≤ promptWidth E w.promptN)
    (hpr : ∀ b, PromptText E b → Landed adv g.vt.width b)
    (hK1 : Colourful E.coloring) (hK2 : CursorBlind E.coloring) (hK3 : OrderBlind E.coloring)
    (hm : g.vt.mode = .ground) (hv : 0 ≤ g.vt.col) (hW : w.termWidth ≤ g.vt.width)
    (hr : ∀ n, .resize n ∈ w.input → n ≤ g.vt.width) (h : Reachable E w s) (hk : noResize s.input ≠ []) :
    Glows E.cfg adv (Hued ren E.coloring (runesOf s.text)) (g.run ren adv (bytesOf E.cfg s.out)) (promptWidth E w.promptN)
        (s.termWidth - promptWidth E w.promptN - 3) (runesOf s.text) s.cursor.toNat (runesOf (lineText s.suffixList)) := by
  have htop : s.topColumn = promptWidth E w.promptN := (ordinary_easy hb ho.modest h).top
  have hview : s.viewWidth = s.termWidth - promptWidth E w.promptN - 3 := by unfold St.viewWidth; rw [htop]
  rw [← hview, ← htop]
  have hroom : promptWidth E w.promptN + 5 < w.termWidth := ho.room
  have ho' := ho.scalar
  have hS : Sane E (blur E adv g.vt.width) := blur_sane hw
  have hst := ordinary_steady hb ho
  obtain ⟨t1, e1, hin⟩ := session_within hS hb hst hW hr h hk
  obtain ⟨⟨t2, e2, hq⟩, hhint⟩ := ordinary_clean hb ho' hx.scalar (ordinary_emits (W := g.vt.width) ho.plain hpw (by omega) hpr) h
  obtain rfl : s.out = t1 := by rw [e1, hw0]; rfl
  obtain rfl : s.out = t2 := by rw [e2, hw0]; rfl
  let T0 : Tint := ⟨{ col := g.vt.col, cells := fun _ => anything, high := 0 }, none, fun _ => none⟩
  have hrow : Mirrors adv T0.row g.vt := ⟨hm, rfl, hv, fun _ => Or.inl rfl⟩
  have hhigh : (Row.run E.cfg (blur E adv g.vt.width) T0.row s.out).high ≤ g.vt.width := by
    have := hin T0.row
    have e : max (0 : Int) (g.vt.width - 3) ≤ g.vt.width := by omega
    exact Int.le_trans this e
  have hrun := Mirrors.run hA hc1 hc2 (by omega) hq hrow rfl hhigh
  have hglaze : Glazed ren T0 g := ⟨fun _ hc => (nomatch hc), fun _ _ hc => (nomatch hc)⟩
  have hG := hglaze.run hA hc1 hc2 (by omega) hq hrow rfl hhigh
  obtain ⟨hsh, hT⟩ := C72_shown_partial (T0 := T0) (tinge_vivid (adv := adv) (W := g.vt.width) hw hK1 hK2) hS (fun b t => tinge_row b t) hK3 hb hst h hk
  rw [← tint_row (lit := tinge E adv g.vt.width) (fun b t => tinge_row b t)] at hrun
  refine hsh.glows hT ?_ hG hw (fun r hr => ⟨ho.plain r hr.1, hr.2⟩) (ordinary_units hb ho'.sources (fun r hr => ho.plain r hr.1) h) hhint
  rw [grun_vt]
  exact hrun

theorem C87_partial {Q : Nat → Prop} (hb : BuiltinKeys E) (ho : Ordinary Q E w) (hx : Plainly Q E w)
    (hA : AgreesPlain E.cfg adv) (hw : ∀ m : Moji, 0 ≤ m.width E.cfg) (hc1 : Sgr E.predictColor.1)
    (hc2 : Sgr E.predictColor.2) (hpw : 0 ≤ promptWidth E w.promptN)
    (hpr : ∀ b, PromptText E b → Landed adv g.vt.width b)
    (hK1 : Colourful E.coloring) (hK2 : CursorBlind E.coloring) (hK3 : OrderBlind E.coloring)
    (hm : g.vt.mode = .ground) (hv : 0 ≤ g.vt.col) (hW : w.termWidth ≤ g.vt.width)
    (hr : ∀ n, .resize n ∈ w.input → n ≤ g.vt.width) (h : Reachable E w s) (hk : noResize s.input ≠ []) :
    ∃ t, s.out = w.out ++ t ∧
      Glows E.cfg adv (Hued ren E.coloring (runesOf s.text)) (g.run ren adv (bytesOf E.cfg t)) (promptWidth E w.promptN)
        (s.termWidth - promptWidth E w.promptN - 3) (runesOf s.text) s.cursor.toNat (runesOf (lineText s.suffixList)) := by
  obtain ⟨s0, h0, rfl⟩ := reachable_wrote hb h
  have ho0 : Ordinary Q E { w with out := [] } := { ho with sources := { ho.sources with } }
  have hx0 : Plainly Q E { w with out := [] } := { hx with }
  exact ⟨s0.out, rfl, fresh_glows (w := { w with out := [] }) rfl hb ho0 hx0 hA hw hc1 hc2 hpw hpr hK1 hK2 hK3 hm hv hW hr h0 hk⟩

/-! ## Colours that do not depend on what the pen was before -/

theorem hue_answer (K : Coloring) {text : List Rune} {i : Nat} (h : i < text.length) :
    hue K text i = (K.next (afterTold K (text.take i)) text[i]).2 := by
  unfold hue
  rw [List.take_add_one, List.getElem?_eq_getElem h]
  exact lastAnswer_snoc ..

/-- If every colour sets all of the pen, the pen of a character is the one of its colour. -/
theorem C87_pens {C : Cfg} {K : Coloring} {top room : Int} {text : List Rune} {cursor : Nat} {hint : List Rune} {pens : Color → P}
    (hd : ∀ σ r p, ren (K.next σ r).2.params p = pens (K.next σ r).2)
    (h : Glows C adv (Hued ren K text) g top room text cursor hint) :
    Glows C adv (fun i p => p = pens (hue K text i)) g top room text cursor hint := by
  refine h.mono fun i p hi hp => ?_
  obtain ⟨q, rfl⟩ := hp
  rw [hue_answer K hi]
  exact hd _ _ q

theorem afterTold_quoting (a b : Color) (rs : List Rune) : afterTold (quoting a b) rs = (rs.count 0x22 % 2 == 1) := by
  have key : ∀ (n : Nat) (rs : List Rune), rs.foldl (fun σ r => (quoteNext a b σ r).1) (n % 2 == 1) = ((n + rs.count 0x22) % 2 == 1) := by
    intro n rs
    induction rs generalizing n with
    | nil => rfl
    | cons r rs ih =>
      show List.foldl _ (quoteNext a b _ r).1 rs = _
      have : (quoteNext a b (n % 2 == 1) r).1 = ((n + if r = 0x22 then 1 else 0) % 2 == 1) := by
        unfold quoteNext
        dsimp only
        split
        · rcases Nat.mod_two_eq_zero_or_one n with h | h <;> simp [h, Nat.add_mod]
        · rfl
      rw [this, ih, List.count_cons]
      by_cases hr : r = 0x22
      · simp [hr]; congr 1; omega
      · simp [hr]
  have := key 0 rs
  rw [Nat.zero_add] at this
  exact this

/-- The colours of the two test programs: inside of quotation marks, and outside. -/
theorem hue_quoting (a b : Color) {text : List Rune} {i : Nat} (h : i < text.length) :
    hue (quoting a b) text i = if quotedAt text i then a else b := by
  rw [hue_answer _ h, afterTold_quoting]
  show (quoteNext a b _ _).2 = _
  unfold quoteNext quotedAt
  dsimp only
  rw [List.getElem?_eq_getElem h]
  by_cases hr : text[i] = 0x22
  · rw [hr]
    rcases Nat.mod_two_eq_zero_or_one ((text.take i).count 0x22) with h | h <;> simp [h]
  · rcases Nat.mod_two_eq_zero_or_one ((text.take i).count 0x22) with h | h <;> simp [h, hr]

theorem hue_vim {text : List Rune} {i : Nat} (h : i < text.length) :
    hue vimBatch text i = vimColor (text.take i) text[i] := by
  rw [hue_answer _ h, afterTold_vim]
  exact vim_color _ _

theorem pen_sgr4 (p : Pen) : Pen.sgr (sgr4 0 35 40 1).params p = ⟨35, 40, true⟩ ∧ Pen.sgr (sgr4 0 37 40 1).params p = ⟨37, 40, true⟩ := by
  have h1 : (sgr4 0 35 40 1).params = [0, 35, 40, 1] := by decide +kernel
  have h2 : (sgr4 0 37 40 1).params = [0, 37, 40, 1] := by decide +kernel
  rw [h1, h2]
  exact ⟨rfl, rfl⟩

theorem pen_fg {i : Nat} (h : i < 10) (h8 : i ≠ 8) (p : Pen) : Pen.sgr (fgColor i).params p = ⟨30 + i, 49, true⟩ := by
  have h1 : ∀ i : Fin 10, (fgColor i.val).params = [30 + i.val, 49, 1] := by decide +kernel
  rw [h1 ⟨i, h⟩]
  show ((p.number (30 + i)).number 49).number 1 = _
  have : p.number (30 + i) = { p with fg := 30 + i } := by
    unfold Pen.number
    rw [if_neg (by omega), if_neg (by omega), if_neg (by omega), if_pos (by omega)]
  rw [this]
  rfl

/-! ## The textbook in colours -/

variable {D : Desk} {t : List Char} {n : Nat} {clip : Option (List Char)} {ks : List (List Char)} {S : Sign}

/-- **Whenever a key is awaited** the terminal shows the page of the textbook in the colours of the colouring. -/
theorem C87_page_partial (h : PlainDesk E w D t n clip ks) (hC : Console S E w D t clip ks adv g.vt)
    (hK1 : Colourful E.coloring) (hK2 : CursorBlind E.coloring) (hK3 : OrderBlind E.coloring) (hr : Reachable E w s)
    (hn : noResize s.input ≠ []) :
    ∃ p k r o hint, Turned D (opening D t n clip) ks p (k :: r) ∧ keysIn s.input = (k :: r).map utf8 ∧ s.out = w.out ++ o ∧
      S.At E.cfg adv (g.run ren adv (bytesOf E.cfg o)).vt (g.run ren adv (bytesOf E.cfg o)).vt.row ∧
      Glows E.cfg adv (Hued ren E.coloring (p.text.map Char.toNat)) (g.run ren adv (bytesOf E.cfg o)) (S.columns E.cfg)
        (s.termWidth - S.columns E.cfg - 3) (p.text.map Char.toNat) p.left.length hint := by
  obtain ⟨p, r, h1, hd, h3⟩ := reachable_drawn h.setting hr
  obtain ⟨o', e', -, hS⟩ := console_shows h hC s hr hn
  have hpw := hC.sign.width w.promptN
  have h0 : 0 ≤ promptWidth E w.promptN := by
    rw [hpw]
    have := plainUnits_columns (C := E.cfg) fun r hr => (hC.sign.plain r hr).1
    show 0 ≤ textColumns E.cfg S.shown
    rw [← this]
    exact Wide0.columns fun m _ => width_nonneg hC.width hC.zwj m
  obtain ⟨o, e, hG⟩ := C87_partial (ren := ren) h.builtin (console_ordinary h hC) (console_plainly h hC) hC.agrees (width_nonneg hC.width hC.zwj)
    hC.colourOn hC.colourOff h0 hC.sign.text hK1 hK2 hK3 hC.ground hC.col hC.wide hC.resized hr hn
  obtain rfl : o = o' := List.append_cancel_left (e.symm.trans e')
  have ht : s.text = utf8 p.text := by rw [← hd.text]; exact St.text_eq s
  have hc : s.cursor = (p.left.length : Int) := hd.cursor
  rw [hpw, ht, runesOf_utf8, hc] at hG
  cases r with
  | nil => exact absurd rfl (awaits_upcoming h3 hn)
  | cons k r => exact ⟨p, k, r, o, _, h1, h3.keys, e, by rw [grun_vt]; exact hS, hG⟩

/-! ## The programs of test/color-sgr and test/color-default-symbol -/

variable {up : List Char → List Char} {v : Vt} {K : Coloring}

theorem hued_desk (h : LoneTable E w up clip ks adv v) : PlainDesk (huedEditor K E) w (loneDesk up) [] 0 clip ks :=
  { lone_desk h with }

theorem hued_console (h : LoneTable E w up clip ks adv v) : Console usualSign (huedEditor K E) w (loneDesk up) [] clip ks adv v :=
  { lone_console h with sign := { (lone_console h).sign with } }

/-- **The programs read a line** and say what they have read below it. -/
theorem C87_program_partial (h : LoneTable E w up clip ks adv v) :
    ∃ r w', mainHued K E w = .ok (r, w') ∧ (textbook (loneDesk up) [] 0 clip ks).answer = some r ∧
      ((∀ e, r.err ≠ .tty e) → ∃ a p rest o, oneLine (loneDesk up) [] 0 clip ks = (a, p, rest) ∧ a.answer = some r ∧ w'.out = w.out ++ o ∧
        LoneRows usualSign E.cfg adv (roomsOf usualSign E.cfg w) v (v.run adv (bytesOf E.cfg o)) p [a.told ['=']]) := by
  obtain ⟨s, r, hrl, h2⟩ := C80_result_partial (hued_desk (K := K) h) (lone_never (.inr (.inr rfl)) h)
  refine ⟨r, _, by unfold mainHued; rw [hrl]; rfl, h2, fun he => ?_⟩
  obtain ⟨a, p, rest, o, h1, h2, g3, g4⟩ := lone_told (hued_desk (K := K) h) (hued_console h) (lone_never (.inl rfl) h) rfl h.inside h.clear hrl he
    (fun a => [a.told ['=']]) fun a ha x hx => by
      rw [List.mem_singleton.mp hx]
      exact told_readable (hued_desk (K := K) h) (lone_legible h) (hued_console h) (by decide) hrl ha
  refine ⟨a, p, rest, o, h1, h2, ?_, g4⟩
  rw [← g3]
  show s.out ++ [.lit (verdict r)] = _
  rw [verdict_told h2 he]
  rfl

/-- **Whenever one of the programs waits for a key**: the page of the textbook, with what is inside of quotation marks in the one colour and
everything else in the other. -/
theorem C87_quoted_partial {a b : Color} {g : Glass Pen} {pa pb : Pen} (h : LoneTable E w up clip ks adv g.vt)
    (ha : 0 < a.toInt ∧ ∀ p, Pen.sgr a.params p = pa) (hb : 0 < b.toInt ∧ ∀ p, Pen.sgr b.params p = pb)
    (hr : Reachable (huedEditor (quoting a b) E) w s) (hn : noResize s.input ≠ []) :
    ∃ p k r o hint, Turned (loneDesk up) (opening (loneDesk up) [] 0 clip) ks p (k :: r) ∧ keysIn s.input = (k :: r).map utf8 ∧ s.out = w.out ++ o ∧
      usualSign.At E.cfg adv (g.run Pen.sgr adv (bytesOf E.cfg o)).vt (g.run Pen.sgr adv (bytesOf E.cfg o)).vt.row ∧
      Glows E.cfg adv (fun i q => q = if quotedAt (p.text.map Char.toNat) i then pa else pb) (g.run Pen.sgr adv (bytesOf E.cfg o)) 2
        (s.termWidth - 5) (p.text.map Char.toNat) p.left.length hint := by
  obtain ⟨h1, h2, h3⟩ := C72_quoting ha.1 hb.1
  obtain ⟨p, k, r, o, hint, q1, q2, q3, q4, q5⟩ := C87_page_partial (ren := Pen.sgr) (hued_desk (K := quoting a b) h) (hued_console h) h1 h2 h3 hr hn
  have hc : usualSign.columns (huedEditor (quoting a b) E).cfg = 2 := usual_columns h.agrees h.ascii
  rw [hc, show s.termWidth - 2 - 3 = s.termWidth - 5 by omega] at q5
  refine ⟨p, k, r, o, hint, q1, q2, q3, q4, q5.mono fun i q hi hq => ?_⟩
  obtain ⟨q', rfl⟩ := hq
  show Pen.sgr (hue (quoting a b) _ i).params q' = _
  rw [hue_quoting a b hi]
  split
  · exact ha.2 q'
  · exact hb.2 q'

/-- test/color-sgr: magenta or white on black. -/
theorem C87_sgr_partial {g : Glass Pen} (h : LoneTable E w up clip ks adv g.vt)
    (hr : Reachable (huedEditor colorSgr E) w s) (hn : noResize s.input ≠ []) :
    ∃ p k r o hint, Turned (loneDesk up) (opening (loneDesk up) [] 0 clip) ks p (k :: r) ∧ keysIn s.input = (k :: r).map utf8 ∧ s.out = w.out ++ o ∧
      usualSign.At E.cfg adv (g.run Pen.sgr adv (bytesOf E.cfg o)).vt (g.run Pen.sgr adv (bytesOf E.cfg o)).vt.row ∧
      Glows E.cfg adv (fun i q => q = if quotedAt (p.text.map Char.toNat) i then ⟨35, 40, true⟩ else ⟨37, 40, true⟩)
        (g.run Pen.sgr adv (bytesOf E.cfg o)) 2 (s.termWidth - 5) (p.text.map Char.toNat) p.left.length hint :=
  C87_quoted_partial h ⟨by decide +kernel, fun p => (pen_sgr4 p).1⟩ ⟨by decide +kernel, fun p => (pen_sgr4 p).2⟩ hr hn

/-- test/color-default-symbol: magenta or white on the usual background. -/
theorem C87_symbol_partial {g : Glass Pen} (h : LoneTable E w up clip ks adv g.vt)
    (hr : Reachable (huedEditor colorSymbol E) w s) (hn : noResize s.input ≠ []) :
    ∃ p k r o hint, Turned (loneDesk up) (opening (loneDesk up) [] 0 clip) ks p (k :: r) ∧ keysIn s.input = (k :: r).map utf8 ∧ s.out = w.out ++ o ∧
      usualSign.At E.cfg adv (g.run Pen.sgr adv (bytesOf E.cfg o)).vt (g.run Pen.sgr adv (bytesOf E.cfg o)).vt.row ∧
      Glows E.cfg adv (fun i q => q = if quotedAt (p.text.map Char.toNat) i then ⟨35, 49, true⟩ else ⟨37, 49, true⟩)
        (g.run Pen.sgr adv (bytesOf E.cfg o)) 2 (s.termWidth - 5) (p.text.map Char.toNat) p.left.length hint :=
  C87_quoted_partial h ⟨by decide +kernel, pen_fg (by decide) (by decide)⟩ ⟨by decide +kernel, pen_fg (by decide) (by decide)⟩ hr hn

/-- The pens `VimBatch` promises (see C37): white on red for an ideographic blank, cyan between percent signs, magenta between quotation marks,
dark yellow for `&`, and the default colour, all but the first and the last but one bold. -/
def Spec.vimPen (pre : List Nat) (c : Nat) : Pen :=
  if c = 0x3000 then ⟨37, 41, false⟩
  else if Spec.inArea 0x25 pre c then ⟨36, 49, true⟩
  else if Spec.inArea 0x22 pre c then ⟨35, 49, true⟩
  else if c = 0x26 then ⟨33, 49, false⟩
  else ⟨39, 49, true⟩

theorem pen_vim (pre : List Nat) (c : Nat) (p : Pen) : Pen.sgr (vimColor pre c).params p = vimPen pre c := by
  have h1 : (sgr3 37 22 41).params = [37, 22, 41] := by decide +kernel
  have h2 : (darkFgColor 3).params = [33, 22, 49] := by decide +kernel
  unfold vimColor vimPen
  by_cases c1 : c = 0x3000
  · rw [if_pos c1, if_pos c1, h1]; rfl
  rw [if_neg c1, if_neg c1]
  by_cases c2 : Spec.inArea 0x25 pre c = true
  · rw [if_pos c2, if_pos c2]; exact pen_fg (by decide) (by decide) p
  rw [if_neg c2, if_neg c2]
  by_cases c3 : Spec.inArea 0x22 pre c = true
  · rw [if_pos c3, if_pos c3]; exact pen_fg (by decide) (by decide) p
  rw [if_neg c3, if_neg c3]
  by_cases c4 : c = 0x26
  · rw [if_pos c4, if_pos c4, h2]; rfl
  rw [if_neg c4, if_neg c4]
  exact pen_fg (i := 9) (by decide) (by decide) p

/-- The same for every desk and `VimBatch`: the colours of C37. -/
theorem C87_vimBatch_partial {g : Glass Pen} (h : PlainDesk E w D t n clip ks) (hC : Console S E w D t clip ks adv g.vt)
    (hK : E.coloring = vimBatch) (hr : Reachable E w s) (hn : noResize s.input ≠ []) :
    ∃ p k r o hint, Turned D (opening D t n clip) ks p (k :: r) ∧ keysIn s.input = (k :: r).map utf8 ∧ s.out = w.out ++ o ∧
      S.At E.cfg adv (g.run Pen.sgr adv (bytesOf E.cfg o)).vt (g.run Pen.sgr adv (bytesOf E.cfg o)).vt.row ∧
      Glows E.cfg adv (fun i q => ∃ c, p.text[i]? = some c ∧ q = vimPen ((p.text.take i).map Char.toNat) c.toNat)
        (g.run Pen.sgr adv (bytesOf E.cfg o)) (S.columns E.cfg) (s.termWidth - S.columns E.cfg - 3) (p.text.map Char.toNat) p.left.length hint := by
  obtain ⟨h1, h2, h3⟩ := C72_vimBatch
  obtain ⟨p, k, r, o, hint, q1, q2, q3, q4, q5⟩ := C87_page_partial (ren := Pen.sgr) h hC (hK ▸ h1) (hK ▸ h2) (hK ▸ h3) hr hn
  refine ⟨p, k, r, o, hint, q1, q2, q3, q4, q5.mono fun i q hi hq => ?_⟩
  obtain ⟨q', rfl⟩ := hq
  have hi' : i < p.text.length := by rw [List.length_map] at hi; exact hi
  rw [hK, hue_vim hi]
  refine ⟨p.text[i], List.getElem?_eq_getElem hi', ?_⟩
  rw [pen_vim, List.getElem_map, List.map_take]

/-! ## Cases -/

section
open Example

def glassRow : Glass Pen := { vt := loneRow, pen := {}, inks := fun _ _ => {} }

/-- `a"世"b`, and the cursor goes back. -/
def quotedKeys : List (List Char) := ["a", "\"", "世", "\"", "b", "\x02", "\r"].map String.toList

theorem quotedKeys_ready : LoneTable (env table) { termWidth := 20, input := quotedKeys.map fun k => .key (utf8 k) } id none quotedKeys (plainColumns table)
    glassRow.vt := by
  have h := shown_console (ks := []) (evs := []) (by simp) (by simp) (by simp)
  refine ⟨fun _ => rfl, rfl, rfl, rfl, (fun u hu => by cases hu), by decide +kernel, (by intro x hx; simp at hx), by decide +kernel, ?_, ?_,
    table_agrees, h.ascii, h.width, h.zwj, by decide, by decide, (by intro x hx; simp at hx), rfl, by decide, by decide, ?_⟩
  · have : ∀ k ∈ quotedKeys, (usualVerb k = .type k ∧ ∀ c ∈ k, 0x20 ≤ c.toNat ∧ (c.toNat < 0x7F ∨ 0x9F < c.toNat)) ∨
        usualVerb k ∈ [.enter, .left] := by decide +kernel
    intro k hk
    rcases this k hk with ⟨h1, h2⟩ | h1
    · exact .inl ⟨h1, fun c hc => ⟨table_plain (h2 c hc).2 (by have := (h2 c hc).1; omega), (h2 c hc).1⟩⟩
    · right
      simp only [List.mem_cons, List.not_mem_nil, or_false] at h1
      rcases h1 with h1 | h1 <;> rw [h1] <;> exact ⟨(fun u hu => by cases hu), by decide⟩
  · intro k hk c hc
    have : ∀ k ∈ quotedKeys, ∀ c ∈ k.head?, (c.toNat < 0x7F ∨ 0x9F < c.toNat) ∧ c.toNat ≠ 9 := by decide +kernel
    exact .inr (table_plain (this k hk c hc).1 (this k hk c hc).2)
  · intro y hy x
    have hy : (3 : Int) < y := hy
    show (if y = 3 ∧ x = 0 then some (0x24, 0) else none) = none
    rw [if_neg (by omega)]

/-- The colours from column 2 on, before Enter is read. -/
example : (match after (huedEditor colorSgr (env table)) { termWidth := 20, input := quotedKeys.map fun k => .key (utf8 k) } 6 with
    | .ok s =>
      let g := glassRow.run Pen.sgr (plainColumns table) (bytesOf table s.out)
      ((List.range 7).map fun (i : Nat) => (g.inks g.vt.row (2 + i)).fg, g.vt.col)
    | .error _ => ([], 0)) = ([37, 35, 35, 35, 35, 37, 39], 7) := by decide +kernel

/-- The hypotheses of `C87_sgr_partial` (and with it of `C87_quoted_partial`, `C87_page_partial` and `C87_partial`) are met in every state of this session
in which a key is awaited. -/
example {s : St} (hr : Reachable (huedEditor colorSgr (env table)) { termWidth := 20, input := quotedKeys.map fun k => .key (utf8 k) } s)
    (hn : noResize s.input ≠ []) :=
  C87_sgr_partial (g := glassRow) quotedKeys_ready hr hn

example {s : St} (hr : Reachable (huedEditor vimBatch (env table)) { termWidth := 20, input := quotedKeys.map fun k => .key (utf8 k) } s)
    (hn : noResize s.input ≠ []) :=
  C87_vimBatch_partial (g := glassRow) (hued_desk (K := vimBatch) quotedKeys_ready) (hued_console quotedKeys_ready) rfl hr hn

example := C87_program_partial (K := colorSymbol) quotedKeys_ready

/-- What the program writes with in the end, and the first character of what it said, with its pen. -/
def lastPen (x : M (RLRes × World)) : Option (Pen × Sight × Pen) :=
  match x with
  | .ok (_, w) =>
    let g := glassRow.run Pen.sgr (plainColumns table) (bytesOf table w.out)
    some (g.pen, g.vt.cells (g.vt.row - 1) 0, g.inks (g.vt.row - 1) 0)
  | .error _ => none

/-- **The pen is not put back**: after `ReadLine` has returned, everything the program writes is bold (examples/example1.go) or bold and white on
black (test/color-sgr), although it was neither before. -/
theorem C87_refuted_left :
    glassRow.pen = ⟨39, 49, false⟩ ∧
    lastPen (main1 (env table) { termWidth := 20, input := quotedKeys.map fun k => .key (utf8 k) }) =
      some (⟨39, 49, true⟩, some (0x54, 0), ⟨39, 49, true⟩) ∧
    lastPen (mainHued colorSgr (env table) { termWidth := 20, input := quotedKeys.map fun k => .key (utf8 k) }) =
      some (⟨37, 40, true⟩, some (0x54, 0), ⟨37, 40, true⟩) := by
  decide +kernel

end

end Readline
