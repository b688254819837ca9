import Verif.Proof.Tabs
import Verif.Spec.Joiner
import Verif.Spec.Columns
import Verif.Props.C05
/-!
# C06: width and count of a string agree with its units

`MojiCountInString(s)` is the number of units of `StringToMoji(s)` for every byte string
(`C06_count`).  `GetStringWidth(s)` is the column behind these units when they are written one after the other
(`C06_width`).  It is the sum of the units' widths unless a tab stands behind
a joined character (`C06_width_partial`); then the two loops disagree about the column of the
tab (`C06_counterexample`).
-/
namespace Readline
open Spec


/-- Only tabs depend on the column. -/
theorem rune2moji_pos (C : Cfg) (r : Rune) (p q : Int) (h : r ≠ 9) :
    rune2moji C r p = rune2moji C r q := by
  simp [rune2moji, h]

theorem mojisWidth_cons (C : Cfg) (m : Moji) (ms : List Moji) :
    mojisWidth C (m :: ms) = m.width C + mojisWidth C ms := by simp [mojisWidth]

theorem mojisWidth_reverse (C : Cfg) (ms : List Moji) :
    mojisWidth C ms.reverse = mojisWidth C ms := by
  simp [mojisWidth, List.sum_reverse]

theorem _root_.Readline.Spec.TabsFirst.tail {C : Cfg} {r : Nat} {rs : List Nat} (h : TabsFirst C (r :: rs)) :
    TabsFirst C rs := by
  intro pre post he x hx
  exact h (r :: pre) post (by simp [he]) x (by simp [hx])

theorem _root_.Readline.Spec.TabsFirst.noTab {C : Cfg} {r : Nat} {rs : List Nat} (h : TabsFirst C (r :: rs))
    (hj : Joins C r) : 9 ∉ rs := by
  intro hm
  obtain ⟨pre, post, rfl⟩ := List.append_of_mem hm
  exact h (r :: pre) post rfl r (by simp) hj

theorem widthCount_nil (C : Cfg) (l : Option Moji) (lw w : Int) (n : Nat) :
    widthCountLoop C [] l lw w n = (w, n) := by rw [widthCountLoop.eq_def]

/-- The counting loop follows the splitting loop. -/
theorem loops_agree_count (C : Cfg) (s : Bytes) (acc : List Moji) (pos : Int)
    (acc' : List Moji) (lw w : Int) (h : acc.length = acc'.length) :
    (widthCountLoop C s acc'.head? lw w acc.length).2 = (stringToMojiLoop C s acc pos).length := by
  fun_induction stringToMojiLoop C s acc pos generalizing acc' lw w with
  | case1 acc pos => rw [widthCount_nil]; simp
  | case2 pos b t r s1 last rest hz next s2 ih =>
    obtain ⟨l', rest', rfl⟩ : ∃ l' rest', acc' = l' :: rest' := by
      cases acc' with
      | nil => simp at h
      | cons a l => exact ⟨a, l, rfl⟩
    rw [widthCountLoop.eq_def]
    simp only [List.head?_cons]
    rw [if_pos hz]
    have := ih (.zwj l' (.raw next) :: rest') ((Moji.zwj l' (.raw next)).width C)
      (w - lw + (Moji.zwj l' (.raw next)).width C) (by simpa using h)
    exact this
  | case3 pos b t r s1 last rest hz hv ih =>
    obtain ⟨l', rest', rfl⟩ : ∃ l' rest', acc' = l' :: rest' := by
      cases acc' with
      | nil => simp at h
      | cons a l => exact ⟨a, l, rfl⟩
    rw [widthCountLoop.eq_def]
    simp only [List.head?_cons]
    rw [if_neg hz, if_pos hv]
    have := ih (.vari l' (.raw r) :: rest') ((Moji.vari l' (.raw r)).width C)
      (w - lw + (Moji.vari l' (.raw r)).width C) (by simpa using h)
    simpa using this
  | case4 pos b t r s1 last rest hz hv hm ih =>
    obtain ⟨l', rest', rfl⟩ : ∃ l' rest', acc' = l' :: rest' := by
      cases acc' with
      | nil => simp at h
      | cons a l => exact ⟨a, l, rfl⟩
    rw [widthCountLoop.eq_def]
    simp only [List.head?_cons]
    rw [if_neg hz, if_neg hv, if_pos hm]
    have := ih (.modi l' (.raw r) :: rest') ((Moji.modi l' (.raw r)).width C)
      (w - lw + (Moji.modi l' (.raw r)).width C) (by simpa using h)
    simpa using this
  | case5 pos b t r s1 last rest hz hv hm m ih =>
    obtain ⟨l', rest', rfl⟩ : ∃ l' rest', acc' = l' :: rest' := by
      cases acc' with
      | nil => simp at h
      | cons a l => exact ⟨a, l, rfl⟩
    rw [widthCountLoop.eq_def]
    simp only [List.head?_cons]
    rw [if_neg hz, if_neg hv, if_neg hm]
    have := ih (rune2moji C r w :: l' :: rest') ((rune2moji C r w).width C)
      (w + (rune2moji C r w).width C) (by simpa using h)
    simpa using this
  | case6 pos b t r s1 m ih =>
    obtain rfl : acc' = [] := by simpa [eq_comm] using h
    rw [widthCountLoop.eq_def]
    simp only [List.head?_nil]
    have := ih [rune2moji C r w] ((rune2moji C r w).width C)
      (w + (rune2moji C r w).width C) (by simp)
    simpa using this

theorem loops_agree_width (C : Cfg) (s : Bytes) (acc : List Moji) (pos : Int)
    (w : Int) (n : Nat) (hw : w = mojisWidth C acc)
    (h : (pos = w ∧ TabsFirst C (runesOf s)) ∨ 9 ∉ runesOf s) :
    (widthCountLoop C s acc.head? (acc.head?.elim 0 (Moji.width C)) w n).1 =
      mojisWidth C (stringToMojiLoop C s acc pos) := by
  fun_induction stringToMojiLoop C s acc pos generalizing w n with
  | case1 acc pos => rw [widthCount_nil, mojisWidth_reverse]; exact hw
  | case2 pos b t r s1 last rest hz next s2 ih =>
    rw [widthCountLoop.eq_def]
    simp only [List.head?_cons]
    rw [if_pos hz]
    rw [runesOf_cons] at h
    have hj : Joins C (decodeRune (b :: t)).1 := isJoiner_iff.mp (by
      have : isZeroWidthJoin C (decodeRune (b :: t)).1 = true := hz
      simp [isJoiner, this])
    have h9 : 9 ∉ runesOf s1 := by
      rcases h with ⟨_, h⟩ | h
      · exact h.noTab hj
      · exact fun hm => h (List.mem_cons_of_mem _ hm)
    have h9' : 9 ∉ runesOf s2 := by
      show 9 ∉ runesOf (s1.drop (decodeRune s1).2)
      clear_value s1
      cases s1 with
      | nil => simp [runesOf_nil]
      | cons b' t' => rw [runesOf_cons] at h9; exact fun hm => h9 (List.mem_cons_of_mem _ hm)
    have := ih (w - last.width C + (Moji.zwj last (.raw next)).width C) n
      (by rw [hw, mojisWidth_cons, mojisWidth_cons]; omega) (Or.inr h9')
    exact this
  | case3 pos b t r s1 last rest hz hv ih =>
    rw [widthCountLoop.eq_def]
    simp only [List.head?_cons]
    rw [if_neg hz, if_pos hv]
    rw [runesOf_cons] at h
    have hj : Joins C (decodeRune (b :: t)).1 := isJoiner_iff.mp (by
      have : isVariationSelectorLike C (decodeRune (b :: t)).1 = true := hv
      simp [isJoiner, this])
    have h9 : 9 ∉ runesOf s1 := by
      rcases h with ⟨_, h⟩ | h
      · exact h.noTab hj
      · exact fun hm => h (List.mem_cons_of_mem _ hm)
    have := ih (w - last.width C + (Moji.vari last (.raw r)).width C) n
      (by rw [hw, mojisWidth_cons, mojisWidth_cons]; omega) (Or.inr h9)
    simpa using this
  | case4 pos b t r s1 last rest hz hv hm ih =>
    rw [widthCountLoop.eq_def]
    simp only [List.head?_cons]
    rw [if_neg hz, if_neg hv, if_pos hm]
    rw [runesOf_cons] at h
    have hj : Joins C (decodeRune (b :: t)).1 := isJoiner_iff.mp (by
      have : isEmojiModifier C (decodeRune (b :: t)).1 = true := hm
      simp [isJoiner, this])
    have h9 : 9 ∉ runesOf s1 := by
      rcases h with ⟨_, h⟩ | h
      · exact h.noTab hj
      · exact fun hm => h (List.mem_cons_of_mem _ hm)
    have := ih (w - last.width C + (Moji.modi last (.raw r)).width C) n
      (by rw [hw, mojisWidth_cons, mojisWidth_cons]; omega) (Or.inr h9)
    simpa using this
  | case5 pos b t r s1 last rest hz hv hm m ih =>
    rw [widthCountLoop.eq_def]
    simp only [List.head?_cons]
    rw [if_neg hz, if_neg hv, if_neg hm]
    rw [runesOf_cons] at h
    have hm' : rune2moji C r w = m := by
      rcases h with ⟨h, _⟩ | h
      · rw [← h]
      · exact rune2moji_pos _ _ _ _ (fun h9 => h (List.mem_cons.mpr (Or.inl h9.symm)))
    have := ih (w + m.width C) (n + 1)
      (by rw [hw, mojisWidth_cons C m]; omega)
      (by
        rcases h with ⟨h, ht⟩ | h
        · exact Or.inl ⟨by rw [h], ht.tail⟩
        · exact Or.inr (fun hm => h (List.mem_cons_of_mem _ hm)))
    show (widthCountLoop C s1 (some (rune2moji C r w)) ((rune2moji C r w).width C)
      (w + (rune2moji C r w).width C) (n + 1)).1 = _
    rw [hm']
    simpa using this
  | case6 pos b t r s1 m ih =>
    rw [widthCountLoop.eq_def]
    simp only [List.head?_nil]
    rw [runesOf_cons] at h
    have hm' : rune2moji C r w = m := by
      rcases h with ⟨h, _⟩ | h
      · rw [← h]
      · exact rune2moji_pos _ _ _ _ (fun h9 => h (List.mem_cons.mpr (Or.inl h9.symm)))
    have := ih (w + m.width C) (n + 1)
      (by rw [hw, mojisWidth_cons]; simp [mojisWidth])
      (by
        rcases h with ⟨h, ht⟩ | h
        · exact Or.inl ⟨by rw [h], ht.tail⟩
        · exact Or.inr (fun hm => h (List.mem_cons_of_mem _ hm)))
    show (widthCountLoop C s1 (some (rune2moji C r w)) ((rune2moji C r w).width C)
      (w + (rune2moji C r w).width C) (n + 1)).1 = _
    rw [hm']
    simpa using this

/-- `MojiCountInString(s) = len(StringToMoji(s))` for every byte string and terminal. -/
theorem C06_count (C : Cfg) (s : Bytes) : (mojiWidthAndCount C s).2 = (stringToMoji C s).length :=
  loops_agree_count C s [] 0 [] 0 0 rfl

theorem columnAfter_append (C : Cfg) (a b : List Moji) (c : Int) :
    columnAfter C (a ++ b) c = columnAfter C b (columnAfter C a c) := by
  induction a generalizing c with
  | nil => rfl
  | cons m a ih => exact ih _

theorem startingAt_rune (C : Cfg) (r : Rune) (p c : Int) : startingAt c (rune2moji C r p) = rune2moji C r c := by
  unfold rune2moji
  repeat' split
  all_goals first | rfl | (simp_all [startingAt])

theorem columns_loop (C : Cfg) (s : Bytes) (acc : List Moji) (pos : Int) (n : Nat) (lw : Int) (l : Option Moji)
    (hl : l = acc.head?.map (startingAt (columnAfter C acc.tail.reverse 0)))
    (hlw : lw = l.elim 0 (Moji.width C)) :
    (widthCountLoop C s l lw (columnAfter C acc.reverse 0) n).1 =
      columnAfter C (stringToMojiLoop C s acc pos) 0 := by
  have hstep : ∀ (m : Moji) (rest : List Moji), columnAfter C (m :: rest).reverse 0 =
      columnAfter C rest.reverse 0 + (startingAt (columnAfter C rest.reverse 0) m).width C := by
    intro m rest
    rw [List.reverse_cons, columnAfter_append]
    rfl
  fun_induction stringToMojiLoop C s acc pos generalizing n lw l with
  | case1 acc pos => rw [widthCount_nil]
  | case2 pos b t r s1 last rest hz next s2 ih =>
    simp only [List.head?_cons, Option.map_some, List.tail_cons] at hl
    subst hl
    simp only [Option.elim] at hlw
    rw [widthCountLoop.eq_def]
    dsimp only
    rw [if_pos hz]
    rw [← ih n _ _ rfl rfl]
    simp only [List.head?_cons, Option.map_some, List.tail_cons, Option.elim]
    rw [hstep, hstep, hlw, Int.add_sub_cancel]
    rfl
  | case3 pos b t r s1 last rest hz hv ih =>
    simp only [List.head?_cons, Option.map_some, List.tail_cons] at hl
    subst hl
    simp only [Option.elim] at hlw
    rw [widthCountLoop.eq_def]
    dsimp only
    rw [if_neg hz, if_pos hv]
    rw [← ih n _ _ rfl rfl]
    simp only [List.head?_cons, Option.map_some, List.tail_cons, Option.elim]
    rw [hstep, hstep, hlw, Int.add_sub_cancel]
    rfl
  | case4 pos b t r s1 last rest hz hv hm ih =>
    simp only [List.head?_cons, Option.map_some, List.tail_cons] at hl
    subst hl
    simp only [Option.elim] at hlw
    rw [widthCountLoop.eq_def]
    dsimp only
    rw [if_neg hz, if_neg hv, if_pos hm]
    rw [← ih n _ _ rfl rfl]
    simp only [List.head?_cons, Option.map_some, List.tail_cons, Option.elim]
    rw [hstep, hstep, hlw, Int.add_sub_cancel]
    rfl
  | case5 pos b t r s1 last rest hz hv hm m ih =>
    simp only [List.head?_cons, Option.map_some, List.tail_cons] at hl
    subst hl
    rw [widthCountLoop.eq_def]
    dsimp only
    rw [if_neg hz, if_neg hv, if_neg hm]
    rw [← ih (n + 1) _ _ rfl rfl]
    simp only [List.head?_cons, Option.map_some, List.tail_cons, Option.elim]
    rw [hstep m, show startingAt _ m = _ from startingAt_rune C r pos _]
  | case6 pos b t r s1 m ih =>
    simp only [List.head?_nil, Option.map_none] at hl
    subst hl
    rw [widthCountLoop.eq_def]
    dsimp only
    rw [← ih (n + 1) _ _ rfl rfl]
    simp only [List.head?_cons, Option.map_some, List.tail_cons, Option.elim]
    rw [hstep m, show startingAt _ m = _ from startingAt_rune C r pos _]

/-- `GetStringWidth(s)` is the column behind the units of `StringToMoji(s)` written one after the other, for every byte
string and terminal. -/
theorem C06_width (C : Cfg) (s : Bytes) : (mojiWidthAndCount C s).1 = columnAfter C (stringToMoji C s) 0 :=
  columns_loop C s [] 0 0 0 none rfl rfl

/-- `GetStringWidth(s)` is the sum of the widths of `StringToMoji(s)` when no attaching code
point stands before a tab.  (Missing: strings with a tab behind a joined character, where the
claim is false.) -/
theorem C06_width_partial (C : Cfg) (s : Bytes) (h : TabsFirst C (runesOf s)) :
    (mojiWidthAndCount C s).1 = ((stringToMoji C s).map (Moji.width C)).sum := by
  have := loops_agree_width C s [] 0 0 0 rfl (Or.inl ⟨rfl, h⟩)
  exact this

/-- On a terminal that joins nothing the two always agree. -/
theorem C06_width_plain (C : Cfg) (s : Bytes) (h1 : C.zwjOk = false) (h2 : C.varOk = false)
    (h3 : C.modOk = false) :
    (mojiWidthAndCount C s).1 = ((stringToMoji C s).map (Moji.width C)).sum :=
  C06_width_partial C s (by intro pre post _ r _; simp [Joins, h1, h2, h3])

/-- `x`, U+FE0F, tab: the two functions disagree about the width. -/
theorem C06_counterexample :
    (mojiWidthAndCount cfgAll (utf8 ['x', '️', '\t'])).1 ≠
      ((stringToMoji cfgAll (utf8 ['x', '️', '\t'])).map (Moji.width cfgAll)).sum := by
  decide +kernel

/-- Non-vacuity: a tab followed by a joined family. -/
example : TabsFirst cfgAll (runesOf (utf8 ['a', '\t', '👩', '‍', '👧'])) := by
  have : runesOf (utf8 ['a', '\t', '👩', '‍', '👧']) = [97, 9, 0x1F469, 0x200D, 0x1F467] := by
    decide +kernel
  rw [this]
  intro pre post he r hr
  match pre, he with
  | [], _ => simp at hr
  | [x], he => simp at he; simp at hr; subst hr; obtain ⟨rfl, _⟩ := he; decide
  | [x, y], he => simp at he
  | [x, y, z], he => simp at he
  | [x, y, z, u], he => simp at he
  | [x, y, z, u, v], he => simp at he
  | x :: y :: z :: u :: v :: _ :: _, he => simp at he
example : (mojiWidthAndCount cfgAll (utf8 ['a', '\t', '👩', '‍', '👧'])) = (7, 3) := by decide +kernel

end Readline
