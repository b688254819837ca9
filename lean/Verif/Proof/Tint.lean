import Verif.Spec.Tint
import Verif.Proof.Ink
import Verif.Proof.VisSession
/-!
# Colours on the row
-/
namespace Readline
open Spec

variable {C : Cfg} {K : Coloring} {E : Env} {lit : Bytes → Tint → Tint} {s s1 s' : St}

/-! ## Which colour -/

theorem afterTold_blind (hK : CursorBlind K) (line : List Moji) (cursor : Int) (i : Nat) :
    afterTold K (toldBefore C line cursor i) = afterTold K ((line.take i).flatMap (toldFor C)) := by
  induction i with
  | zero => rfl
  | succ i ih =>
    have key : ∀ σ : K.σ, (toldAt C line cursor i).foldl (fun σ r => (K.next σ r).1) σ =
        ((line[i]?).elim [] (toldFor C)).foldl (fun σ r => (K.next σ r).1) σ := by
      intro σ
      unfold toldAt
      split
      · rw [List.foldl_append]
        show List.foldl _ (K.next σ 0xE000).1 _ = _
        rw [hK]
      · rfl
    rw [toldBefore_succ, afterTold_append, key, ih]
    cases hi : line[i]? with
    | none =>
      have hl := List.getElem?_eq_none_iff.mp hi
      rw [List.take_of_length_le (by omega : line.length ≤ i + 1), List.take_of_length_le hl]
      rfl
    | some m =>
      have : line.take (i + 1) = line.take i ++ [m] := by rw [List.take_add_one, hi]; rfl
      rw [this, List.flatMap_append, afterTold_append]
      simp

theorem lastAnswer_state {a c : List Rune} (h : afterTold K a = afterTold K c) {rs : List Rune} (hr : rs ≠ []) :
    lastAnswer K (a ++ rs) = lastAnswer K (c ++ rs) := by
  obtain ⟨xs, r, rfl⟩ : ∃ xs r, rs = xs ++ [r] := ⟨rs.dropLast, rs.getLast hr, (List.dropLast_concat_getLast hr).symm⟩
  rw [← List.append_assoc, ← List.append_assoc, lastAnswer_snoc, lastAnswer_snoc, afterTold_append, afterTold_append, h]

theorem unitColor_blind (hK : CursorBlind K) {line : List Moji} {cursor : Int} {i : Nat} (hi : i < line.length) :
    unitColor C K line cursor i = colourOf C K line i := by
  unfold unitColor colourOf
  have hm : line[i]? = some line[i] := List.getElem?_eq_getElem hi
  have ht : line.take (i + 1) = line.take i ++ [line[i]] := by rw [List.take_add_one, hm]; rfl
  rw [toldBefore_succ, ht, List.flatMap_append]
  have h1 : toldAt C line cursor i = (if (i : Int) = cursor then [0xE000] else []) ++ toldFor C line[i] := by
    unfold toldAt; rw [hm]; rfl
  rw [h1, ← List.append_assoc]
  have h2 : [line[i]].flatMap (toldFor C) = toldFor C line[i] := by simp
  rw [h2]
  refine lastAnswer_state ?_ (toldFor_ne _)
  rw [afterTold_append]
  split
  · show (K.next _ 0xE000).1 = _
    rw [hK, afterTold_blind hK]
  · exact afterTold_blind hK _ _ _

theorem colourOf_take {l l' : List Moji} {i : Nat} (h : l.take (i + 1) = l'.take (i + 1)) :
    colourOf C K l i = colourOf C K l' i := by unfold colourOf; rw [h]

/-! ## Printing -/

theorem Spec.Tint.run_append (t : Tint) (a c : List Tok) : t.run C lit (a ++ c) = (t.run C lit a).run C lit c := by
  simp [Tint.run]

/-- Printing units in colours. -/
def inkLay (C : Cfg) (f : Int → Option Color) : Int → List (Moji × Option Color) → Int → Option Color
  | _, [] => f
  | c, (m, k) :: l => inkLay C (fun x => if c ≤ x ∧ x < c + m.width C then k else f x) (c + m.width C) l

theorem run_inked {ts : List Tok} (h : ∀ t ∈ ts, (∃ m, t = Tok.glyph m) ∨ ∃ d, t = Tok.sgr d) (T : Tint) :
    (T.run C lit ts).row = T.row.puts C ((inked T.ink ts).map Prod.fst) ∧
    (T.run C lit ts).ink = inkAfter T.ink ts ∧
    (T.run C lit ts).inks = inkLay C T.inks T.row.col (inked T.ink ts) := by
  induction ts generalizing T with
  | nil => exact ⟨rfl, rfl, rfl⟩
  | cons x ts ih =>
    have ih' := ih (fun t ht => h t (List.mem_cons_of_mem _ ht)) (T.receive C lit x)
    have e : T.run C lit (x :: ts) = (T.receive C lit x).run C lit ts := rfl
    rw [e, ih'.1, ih'.2.1, ih'.2.2]
    rcases h x (by simp) with ⟨m, rfl⟩ | ⟨d, rfl⟩
    · exact ⟨rfl, rfl, rfl⟩
    · exact ⟨rfl, rfl, rfl⟩

theorem inkLay_outside (hC : ∀ m : Moji, 0 ≤ m.width C) (f : Int → Option Color) (c : Int) (l : List (Moji × Option Color))
    {x : Int} (h : x < c ∨ c + columns C (l.map Prod.fst) ≤ x) : inkLay C f c l x = f x := by
  induction l generalizing f c with
  | nil => rfl
  | cons a l ih =>
    obtain ⟨m, k⟩ := a
    have hm := hC m
    have hl : 0 ≤ columns C (l.map Prod.fst) := Wide0.columns fun m _ => hC m
    have e : columns C (((m, k) :: l).map Prod.fst) = m.width C + columns C (l.map Prod.fst) := rfl
    rw [e] at h
    rw [inkLay, ih]
    · rw [if_neg (by omega)]
    · omega

theorem inkLay_inside (hC : ∀ m : Moji, 0 ≤ m.width C) (f : Int → Option Color) (c : Int) (l : List (Moji × Option Color))
    {i : Nat} {m : Moji} {k : Option Color} (hi : l[i]? = some (m, k)) {x : Int}
    (h1 : c + columns C ((l.take i).map Prod.fst) ≤ x) (h2 : x < c + columns C ((l.take i).map Prod.fst) + m.width C) :
    inkLay C f c l x = k := by
  induction l generalizing f c i with
  | nil => simp at hi
  | cons a l ih =>
    obtain ⟨m', k'⟩ := a
    cases i with
    | zero =>
      simp only [List.getElem?_cons_zero, Option.some.injEq, Prod.mk.injEq] at hi
      obtain ⟨rfl, rfl⟩ := hi
      have e : columns C (((((m', k') :: l).take 0).map Prod.fst)) = 0 := rfl
      rw [e] at h1 h2
      rw [inkLay, inkLay_outside hC _ _ _ (by omega), if_pos (by omega)]
    | succ i =>
      have e : columns C ((((m', k') :: l).take (i + 1)).map Prod.fst) = m'.width C + columns C ((l.take i).map Prod.fst) := rfl
      rw [e] at h1 h2
      rw [inkLay]
      exact ih _ _ (by simpa using hi) (by omega) (by omega)

/-- What `puts` does to the row: the units `lo..hi` appear in their colours, nothing else changes. -/
theorem puts_tint (hC : ∀ m : Moji, 0 ≤ m.width E.cfg) (hK : Colourful E.coloring) (hb : CursorBlind E.coloring)
    {lo hi : Int} (h : puts E s lo hi = .ok s') :
    (∃ o, s' = { s with buf := refreshed E s, out := o }) ∧ s'.aligned E ∧ (s.aligned E → s'.mojis = s.mojis) ∧
    s'.len = s.len ∧ (0 ≤ lo ∧ lo ≤ hi ∧ hi ≤ s.len) ∧
    ∃ t, s'.out = s.out ++ t ∧ ∀ T : Tint,
      (T.run E.cfg lit t).row = T.row.puts E.cfg (s'.between lo hi) ∧
      (∀ (i : Nat) m x, lo ≤ i → i < hi → s'.mojis[i]? = some m →
        T.row.col + columns E.cfg (s'.between lo i) ≤ x → x < T.row.col + columns E.cfg (s'.between lo i) + m.width E.cfg →
        (T.run E.cfg lit t).inks x = some (colourOf E.cfg E.coloring s'.mojis i)) ∧
      ∀ x, (x < T.row.col ∨ T.row.col + columns E.cfg (s'.between lo hi) ≤ x) → (T.run E.cfg lit t).inks x = T.inks x := by
  obtain ⟨e, _⟩ := puts_draws (lit := fun _ r => r) h
  obtain ⟨b1, b2, b3, hl, htold, ts, ho, hk, hi'⟩ := puts_inked hK h
  refine ⟨e, puts_aligned h, fun ha => by obtain ⟨o, e⟩ := e; rw [e]; exact refreshed_id ha, hl, ⟨b1, b2, b3⟩, ts, ho, fun T => ?_⟩
  obtain ⟨r1, _, r3⟩ := run_inked (C := E.cfg) (lit := lit) hk T
  obtain ⟨f1, f2, _⟩ := hi' T.ink
  have hbt : (inked T.ink ts).map Prod.fst = s'.between lo hi := f1
  have hlen : (s'.mojis.length : Int) = s.len := by rw [mojis_length, hl]
  refine ⟨by rw [r1, hbt], fun i m x h1 h2 hm hx1 hx2 => ?_, fun x hx => ?_⟩
  · rw [r3]
    have hj : ((i : Int) - lo).toNat + lo.toNat = i := by omega
    have hcol : unitColors E.cfg E.coloring (s.buf.map Cell.moji) s.cursor lo.toNat hi.toNat =
        unitColors E.cfg E.coloring s'.mojis s.cursor lo.toNat hi.toNat := by
      unfold unitColors
      congr 1
      funext j
      unfold unitColor
      rw [toldBefore_congr (l' := s'.mojis)]
      unfold St.mojis
      rw [List.map_map, List.map_map]
      exact htold.symm
    have hfst : ((inked T.ink ts).map Prod.fst)[((i : Int) - lo).toNat]? = some m := by
      rw [hbt]
      unfold St.between
      rw [List.getElem?_drop, List.getElem?_take_of_lt (by omega)]
      rw [show lo.toNat + ((i : Int) - lo).toNat = i by omega, hm]
    have hsnd : ((inked T.ink ts).map Prod.snd)[((i : Int) - lo).toNat]? =
        some (some (unitColor E.cfg E.coloring s'.mojis s.cursor i)) := by
      rw [f2, hcol]
      unfold unitColors
      rw [List.getElem?_map, List.getElem?_map, List.getElem?_range' (by omega)]
      rw [show lo.toNat + 1 * ((i : Int) - lo).toNat = i by omega]
      rfl
    rw [List.getElem?_map] at hfst hsnd
    have hp : (inked T.ink ts)[((i : Int) - lo).toNat]? =
        some (m, some (unitColor E.cfg E.coloring s'.mojis s.cursor i)) := by
      cases hq : (inked T.ink ts)[((i : Int) - lo).toNat]? with
      | none => rw [hq] at hfst; cases hfst
      | some q =>
        rw [hq] at hfst hsnd
        obtain ⟨q1, q2⟩ := q
        cases hfst; cases hsnd; rfl
    have htake : ((inked T.ink ts).take ((i : Int) - lo).toNat).map Prod.fst = s'.between lo i := by
      rw [List.map_take, hbt]
      unfold St.between
      rw [List.take_drop, List.take_take]
      congr 2
      omega
    have := inkLay_inside hC T.inks T.row.col (inked T.ink ts) hp (x := x) (by rw [htake]; exact hx1)
      (by rw [htake]; exact hx2)
    rw [this, unitColor_blind hb (by omega)]
  · rw [r3]
    exact inkLay_outside hC _ _ _ (by rw [hbt]; exact hx)

end Readline
