import Verif.Spec.Ink
import Verif.Proof.Draw
import Verif.Proof.Trace
/-!
# Colours of what is printed
-/
namespace Readline
open Spec

variable {C : Cfg} {K : Coloring}

theorem afterTold_append (a c : List Rune) :
    afterTold K (a ++ c) = c.foldl (fun σ r => (K.next σ r).1) (afterTold K a) := by
  simp [afterTold]

theorem lastAnswer_snoc (a : List Rune) (r : Rune) :
    lastAnswer K (a ++ [r]) = (K.next (afterTold K a) r).2 := by
  simp [lastAnswer]

theorem nextAll_eq (rs : List Rune) (σ : K.σ) (c : Color) (r : Rune) :
    nextAll K σ c (rs ++ [r]) = (K.next (rs.foldl (fun σ r => (K.next σ r).1) σ) r) := by
  induction rs generalizing σ c with
  | nil => rfl
  | cons x xs ih => exact ih _ _

theorem nextAll_told (a rs : List Rune) (c : Color) (h : rs ≠ []) :
    nextAll K (afterTold K a) c rs = (afterTold K (a ++ rs), lastAnswer K (a ++ rs)) := by
  obtain ⟨xs, r, rfl⟩ : ∃ xs r, rs = xs ++ [r] := ⟨rs.dropLast, rs.getLast h, (List.dropLast_concat_getLast h).symm⟩
  rw [nextAll_eq, ← List.append_assoc, lastAnswer_snoc, afterTold_append (a ++ xs), afterTold_append]
  rfl

theorem Moji.write_ne (m : Moji) : m.write ≠ [] := by
  induction m with
  | tab p => simp [Moji.write]
  | raw r => exact encodeRune_ne_nil r
  | esc r => exact encodeRune_ne_nil r
  | ri r => exact encodeRune_ne_nil r
  | ctrl r => exact encodeRune_ne_nil r
  | flag r => exact encodeRune_ne_nil r
  | zwj a b ha hb => simp [Moji.write, ha]
  | modi a b ha hb => simp [Moji.write, ha]
  | vari a b ha hb => simp [Moji.write, ha]

theorem runesOf_ne {b : Bytes} (h : b ≠ []) : runesOf b ≠ [] := by
  cases b with
  | nil => exact absurd rfl h
  | cons x xs => rw [runesOf_cons]; exact List.cons_ne_nil _ _

theorem toldFor_ne (m : Moji) : toldFor C m ≠ [] := by
  cases m with
  | zwj a b =>
    apply runesOf_ne
    unfold Moji.print
    split <;> simp_all [saveCursorAfterN, encodeRune_ne_nil]
  | modi a b => exact runesOf_ne (by simp [Moji.print, Moji.write_ne])
  | vari a b => exact runesOf_ne (by simp [Moji.print, saveCursorAfterN])
  | _ => simp [toldFor]

/-- The colour `refreshCell` gives, and what it leaves of the unit. -/
theorem refreshCell_told (a : List Rune) (position : Int) (cell : Cell) :
    (refreshCell C K (afterTold K a) position cell).1 = afterTold K (a ++ toldFor C cell.moji) ∧
    (refreshCell C K (afterTold K a) position cell).2.2.color = lastAnswer K (a ++ toldFor C cell.moji) ∧
    toldFor C (refreshCell C K (afterTold K a) position cell).2.2.moji = toldFor C cell.moji := by
  obtain ⟨m, c, p⟩ := cell
  have one : ∀ r, (K.next (afterTold K a) r).1 = afterTold K (a ++ [r]) ∧
      (K.next (afterTold K a) r).2 = lastAnswer K (a ++ [r]) := fun r =>
    ⟨by rw [afterTold_append]; rfl, by rw [lastAnswer_snoc]⟩
  cases m with
  | tab p => exact ⟨(one _).1, (one _).2, rfl⟩
  | raw r => exact ⟨(one _).1, (one _).2, rfl⟩
  | esc r => exact ⟨(one _).1, (one _).2, rfl⟩
  | ri r => exact ⟨(one _).1, (one _).2, rfl⟩
  | ctrl r => exact ⟨(one _).1, (one _).2, rfl⟩
  | flag r => exact ⟨(one _).1, (one _).2, rfl⟩
  | zwj x y =>
    have := nextAll_told (K := K) a (toldFor C (.zwj x y)) 0#64 (toldFor_ne _)
    exact ⟨(Prod.ext_iff.mp this).1, (Prod.ext_iff.mp this).2, rfl⟩
  | modi x y =>
    have := nextAll_told (K := K) a (toldFor C (.modi x y)) 0#64 (toldFor_ne _)
    exact ⟨(Prod.ext_iff.mp this).1, (Prod.ext_iff.mp this).2, rfl⟩
  | vari x y =>
    have := nextAll_told (K := K) a (toldFor C (.vari x y)) 0#64 (toldFor_ne _)
    exact ⟨(Prod.ext_iff.mp this).1, (Prod.ext_iff.mp this).2, rfl⟩

theorem toldBefore_succ (line : List Moji) (cursor : Int) (i : Nat) :
    toldBefore C line cursor (i + 1) = toldBefore C line cursor i ++ toldAt C line cursor i := by
  simp [toldBefore, List.range_succ]

theorem refreshLoop_told (line : List Moji) (cursor : Int) (cells : List Cell) (i : Nat) (position : Int)
    (h : ∀ j, cells[j]?.map Cell.moji = line[i + j]?) :
    (refreshLoop C K cursor (afterTold K (toldBefore C line cursor i)) i position cells).map Cell.color =
      (List.range' i cells.length).map (unitColor C K line cursor) ∧
    (refreshLoop C K cursor (afterTold K (toldBefore C line cursor i)) i position cells).map (fun c => toldFor C c.moji) =
      cells.map (fun c => toldFor C c.moji) := by
  induction cells generalizing i position with
  | nil => exact ⟨rfl, rfl⟩
  | cons cell rest ih =>
    have h0 : line[i]? = some cell.moji := by have := h 0; simpa using this.symm
    have hσ : (if (i : Int) = cursor then (K.next (afterTold K (toldBefore C line cursor i)) cursorDummyRune).1
        else afterTold K (toldBefore C line cursor i)) =
        afterTold K (toldBefore C line cursor i ++ (if (i : Int) = cursor then [0xE000] else [])) := by
      split
      · rw [afterTold_append]; rfl
      · rw [List.append_nil]
    rw [refreshLoop]
    dsimp only
    rw [hσ]
    obtain ⟨e1, e2, e3⟩ := refreshCell_told (C := C) (K := K)
      (toldBefore C line cursor i ++ (if (i : Int) = cursor then [0xE000] else [])) position cell
    have hn : toldBefore C line cursor i ++ (if (i : Int) = cursor then [0xE000] else []) ++ toldFor C cell.moji =
        toldBefore C line cursor (i + 1) := by
      rw [toldBefore_succ, toldAt, h0, List.append_assoc]; rfl
    rw [hn] at e1 e2
    have := ih (i + 1) (refreshCell C K (afterTold K (toldBefore C line cursor i ++
      (if (i : Int) = cursor then [0xE000] else []))) position cell).2.1 (fun j => by
        have := h (j + 1)
        simp only [List.getElem?_cons_succ] at this
        rw [this]; congr 1; omega)
    rw [← e1] at this
    push_cast at this
    constructor
    · rw [List.map_cons, this.1, e2]; rfl
    · rw [List.map_cons, this.2, e3]; rfl

/-! ## `puts` -/

theorem setInk_pos {c : Option Color} {d : Color} (h : 0 < d.toInt) : setInk c d = some d := by
  unfold setInk Color.write
  rw [if_neg (by rw [if_neg (by omega)]; simp)]

theorem inked_append (c : Option Color) (a b : List Tok) :
    inked c (a ++ b) = inked c a ++ inked (inkAfter c a) b := by
  induction a generalizing c with
  | nil => rfl
  | cons t ts ih => cases t <;> simp [inked, inkAfter, ih]

theorem inkAfter_append (c : Option Color) (a b : List Tok) :
    inkAfter c (a ++ b) = inkAfter (inkAfter c a) b := by
  induction a generalizing c with
  | nil => rfl
  | cons t ts ih => cases t <;> simp [inkAfter, ih]

theorem lastAnswer_pos (hK : Colourful K) {rs : List Rune} (h : rs ≠ []) : 0 < (lastAnswer K rs).toInt := by
  obtain ⟨xs, r, rfl⟩ : ∃ xs r, rs = xs ++ [r] := ⟨rs.dropLast, rs.getLast h, (List.dropLast_concat_getLast h).symm⟩
  rw [lastAnswer_snoc]
  exact hK.2 _ _

theorem unitColor_pos (hK : Colourful K) {line : List Moji} {cursor : Int} {i : Nat} (h : i < line.length) :
    0 < (unitColor C K line cursor i).toInt := by
  apply lastAnswer_pos hK
  rw [toldBefore_succ, toldAt, List.getElem?_eq_getElem h]
  intro e
  exact toldFor_ne (C := C) line[i] (List.append_eq_nil_iff.mp (List.append_eq_nil_iff.mp e).2).2

/-- The terminal is in colour `color`, unless nothing was printed yet. -/
def InForce (c : Option Color) (color : Color) : Prop := color = -1#64 ∨ c = some color

theorem putsLoop_inked {cs : List Cell} {color color' : Color} {s s' : St}
    (h : putsLoop cs color s = .ok (s', color')) (hp : ∀ x ∈ cs, 0 < x.color.toInt) :
    ∃ ts, s'.out = s.out ++ ts ∧ (∀ t ∈ ts, (∃ m, t = .glyph m) ∨ ∃ d, t = .sgr d) ∧
      ∀ c, InForce c color →
        inked c ts = cs.map (fun x => (x.moji, some x.color)) ∧ InForce (inkAfter c ts) color' := by
  induction cs generalizing color s with
  | nil => cases h; exact ⟨[], by simp, by simp, fun c hc => ⟨rfl, hc⟩⟩
  | cons x cs ih =>
    rw [putsLoop] at h
    obtain ⟨s1, h1, h2⟩ := bind_ok.mp h
    obtain ⟨ts, e, hk, hi⟩ := ih h2 (fun y hy => hp y (by simp [hy]))
    unfold printMoji at h1
    split at h1
    · cases h1
    · cases h1
      have hx := hp x (by simp)
      by_cases hc : x.color = color
      · rw [if_neg (by simpa using hc)] at e
        refine ⟨.glyph x.moji :: ts, by rw [e]; simp [St.emit], ?_, fun c hf => ?_⟩
        · intro t ht
          rcases List.mem_cons.mp ht with rfl | ht
          · exact Or.inl ⟨_, rfl⟩
          · exact hk t ht
        · have hf' : c = some x.color := by
            rcases hf with hf | hf
            · rw [hc, hf] at hx; exact absurd hx (by decide)
            · rw [hf, hc]
          obtain ⟨a1, a2⟩ := hi c (Or.inr hf')
          exact ⟨by rw [inked, a1, hf']; rfl, a2⟩
      · rw [if_pos (by simpa using hc)] at e
        refine ⟨.sgr x.color :: .glyph x.moji :: ts, by rw [e]; simp [St.emit], ?_, fun c hf => ?_⟩
        · intro t ht
          rcases List.mem_cons.mp ht with rfl | ht
          · exact Or.inr ⟨_, rfl⟩
          · rcases List.mem_cons.mp ht with rfl | ht
            · exact Or.inl ⟨_, rfl⟩
            · exact hk t ht
        · have hs := setInk_pos (c := c) hx
          obtain ⟨a1, a2⟩ := hi (some x.color) (Or.inr rfl)
          exact ⟨by rw [inked, inked, hs, a1]; rfl, by rw [inkAfter, inkAfter, hs]; exact a2; all_goals simp⟩

theorem toldBefore_congr {l l' : List Moji} (h : l.map (toldFor C) = l'.map (toldFor C)) (cursor : Int) (i : Nat) :
    toldBefore C l cursor i = toldBefore C l' cursor i := by
  have : toldAt C l cursor = toldAt C l' cursor := by
    funext j
    have hj : (l[j]?).map (toldFor C) = (l'[j]?).map (toldFor C) := by
      rw [← List.getElem?_map, ← List.getElem?_map, h]
    have he : ∀ o : Option Moji, o.elim [] (toldFor C) = (o.map (toldFor C)).getD [] := fun o => by cases o <;> rfl
    rw [toldAt, toldAt, he, he, hj]
  rw [toldBefore, this]; rfl

/-- What `puts` prints: the units `lo..hi` of the line, each in its colour, and then the default
colour. -/
theorem puts_inked {E : Env} {s s' : St} {lo hi : Int} (hK : Colourful E.coloring) (h : puts E s lo hi = .ok s') :
    0 ≤ lo ∧ lo ≤ hi ∧ hi ≤ s.len ∧ s'.len = s.len ∧
    s'.buf.map (fun c => toldFor E.cfg c.moji) = s.buf.map (fun c => toldFor E.cfg c.moji) ∧
    ∃ ts, s'.out = s.out ++ ts ∧ (∀ t ∈ ts, (∃ m, t = .glyph m) ∨ ∃ d, t = .sgr d) ∧
      ∀ c, (inked c ts).map Prod.fst = ((s'.buf.map Cell.moji).take hi.toNat).drop lo.toNat ∧
        (inked c ts).map Prod.snd =
          (unitColors E.cfg E.coloring (s.buf.map Cell.moji) s.cursor lo.toNat hi.toNat).map some ∧
        inkAfter c ts = some E.coloring.defaultColor := by
  obtain ⟨⟨o, e⟩, _⟩ := puts_draws (lit := fun _ r => r) h
  unfold puts at h
  obtain ⟨x, h0, h⟩ := bind_ok.mp h
  obtain ⟨b1, b2, b3, _⟩ := slice_ok h0
  obtain ⟨s1, h1, h⟩ := bind_ok.mp h
  obtain ⟨cs, h2, h⟩ := bind_ok.mp h
  obtain ⟨⟨s2, col⟩, h3, h⟩ := bind_ok.mp h
  have hs := (slice_ok h2).2.2.2
  have e1 := refreshColor_eq h1
  have hfin := pure_ok.mp h
  have ht := refreshLoop_told (C := E.cfg) (K := E.coloring) (s.buf.map Cell.moji) s.cursor s.buf 0 0
    (fun j => by rw [Nat.zero_add, List.getElem?_map])
  have hcol : (refreshed E s).map Cell.color =
      (List.range' 0 s.buf.length).map (unitColor E.cfg E.coloring (s.buf.map Cell.moji) s.cursor) := ht.1
  have hlen : (refreshed E s).length = s.buf.length := by
    have := congrArg List.length hcol
    simpa using this
  have hb : s'.buf = refreshed E s := by rw [e]
  have hb1 : s1.buf = refreshed E s := by rw [e1]
  have hcs : cs = ((refreshed E s).take hi.toNat).drop lo.toNat := by rw [hs, hb1]
  have hcc : cs.map Cell.color =
      unitColors E.cfg E.coloring (s.buf.map Cell.moji) s.cursor lo.toNat hi.toNat := by
    rw [hcs, List.map_drop, List.map_take, hcol, ← List.map_take, ← List.map_drop, unitColors]
    congr 1
    apply List.ext_getElem
    · simp; omega
    · intro n h1 h2
      simp
  have hpos : ∀ y ∈ cs, 0 < y.color.toInt := by
    intro y hy
    have : y.color ∈ cs.map Cell.color := List.mem_map.mpr ⟨y, hy, rfl⟩
    rw [hcc, unitColors] at this
    obtain ⟨i, hi', he⟩ := List.mem_map.mp this
    rw [← he]
    apply unitColor_pos hK
    simp only [List.mem_range'_1] at hi'
    simp only [List.length_map]
    omega
  obtain ⟨ts, ho, hk, hi'⟩ := putsLoop_inked h3 hpos
  have hl' : s'.len = s.len := by simp only [St.len, hb, hlen]
  refine ⟨b1, b2, b3, hl', by rw [hb]; exact ht.2, ?_⟩
  have hd := setInk_pos (c := none) hK.1
  have hout : s1.out = s.out := by rw [e1]
  have hfst : cs.map Cell.moji = ((s'.buf.map Cell.moji).take hi.toNat).drop lo.toNat := by
    rw [hcs, hb, List.map_drop, List.map_take]
  by_cases hc : col = E.coloring.defaultColor
  · rw [if_neg (by simpa using hc)] at hfin
    refine ⟨ts, by rw [← hfin, ho, hout], hk, fun c => ?_⟩
    obtain ⟨a1, a2⟩ := hi' c (Or.inl rfl)
    refine ⟨by rw [a1, ← hfst, List.map_map]; rfl, by rw [a1, ← hcc, List.map_map, List.map_map]; rfl, ?_⟩
    rcases a2 with a2 | a2
    · have := hK.1; rw [← hc, a2] at this; exact absurd this (by decide)
    · rw [a2, hc]
  · rw [if_pos (by simpa using hc)] at hfin
    refine ⟨ts ++ [.sgr E.coloring.defaultColor], by rw [← hfin]; simp [St.emit, ho, hout], ?_, fun c => ?_⟩
    · intro t ht'
      rcases List.mem_append.mp ht' with ht' | ht'
      · exact hk t ht'
      · simp at ht'; exact Or.inr ⟨_, ht'⟩
    · obtain ⟨a1, a2⟩ := hi' c (Or.inl rfl)
      rw [inked_append, inkAfter_append]
      refine ⟨?_, ?_, setInk_pos hK.1⟩
      · rw [a1, ← hfst]; simp [inked, Function.comp_def]
      · rw [a1, ← hcc]; simp [inked, Function.comp_def]

end Readline
