import Verif.Model.Misc
/-!
# C37: VimBatch colours by quotation and %..% areas

`C37_quoting` is the same for the colourings of test/color-sgr and test/color-default-symbol.
-/
namespace Readline

/-- The character at the end of `pre ++ [c]` is inside or on the border of an area delimited
by `d`: an odd number of delimiters stands before it or up to and including it. -/
def Spec.inArea (d : Nat) (pre : List Nat) (c : Nat) : Bool :=
  pre.count d % 2 == 1 || (pre ++ [c]).count d % 2 == 1

/-- The colour the documentation promises for `c` after the characters `pre`. -/
def Spec.vimColor (pre : List Nat) (c : Nat) : Color :=
  if c = 0x3000 then sgr3 37 22 41
  else if Spec.inArea 0x25 pre c then fgColor 6
  else if Spec.inArea 0x22 pre c then fgColor 5
  else if c = 0x26 then darkFgColor 3
  else defaultForeGroundColor

/-- Colours of all characters of a line, in order. -/
def Spec.vimColors : List Nat → List Nat → List Color
  | _, [] => []
  | pre, c :: cs => Spec.vimColor pre c :: Spec.vimColors (pre ++ [c]) cs

/-- The colours `Next` returns for the characters of a line. -/
def nextColors (K : Coloring) : K.σ → List Rune → List Color
  | _, [] => []
  | σ, c :: cs => (K.next σ c).2 :: nextColors K (K.next σ c).1 cs

theorem odd_succ (n : Nat) : ((n + 1) % 2 == 1) = !(n % 2 == 1) := by
  rcases Nat.mod_two_eq_zero_or_one n with h | h <;> simp [Nat.add_mod, h]

theorem vim_state (pre : List Nat) (c : Nat) :
    (vimNext (pre.count 0x25 % 2 == 1, pre.count 0x22 % 2 == 1) c).1 =
      ((pre ++ [c]).count 0x25 % 2 == 1, (pre ++ [c]).count 0x22 % 2 == 1) := by
  unfold vimNext
  by_cases h1 : c = 0x25
  · subst h1
    simp [List.count_append, odd_succ]
  · by_cases h2 : c = 0x22
    · subst h2
      simp [List.count_append, odd_succ]
    · have e1 : List.count 0x25 [c] = 0 := List.count_eq_zero.mpr (by simpa using fun h => h1 h.symm)
      have e2 : List.count 0x22 [c] = 0 := List.count_eq_zero.mpr (by simpa using fun h => h2 h.symm)
      simp [List.count_append, h1, h2, e1, e2]

theorem vim_color (pre : List Nat) (c : Nat) :
    (vimNext (pre.count 0x25 % 2 == 1, pre.count 0x22 % 2 == 1) c).2 = Spec.vimColor pre c := by
  have h := vim_state pre c
  have h1 := congrArg Prod.fst h
  have h2 := congrArg Prod.snd h
  unfold vimNext at h1 h2 ⊢
  simp only at h1 h2 ⊢
  rw [h1, h2]
  rfl

theorem vim_colors (pre cs : List Nat) :
    nextColors vimBatch (pre.count 0x25 % 2 == 1, pre.count 0x22 % 2 == 1) cs =
      Spec.vimColors pre cs := by
  induction cs generalizing pre with
  | nil => rfl
  | cons c cs ih =>
    show (vimNext _ c).2 :: nextColors vimBatch (vimNext _ c).1 cs = _
    rw [vim_color, vim_state, ih]
    rfl

/-- After `Init`, the colour of every character of every line is the promised one. -/
theorem C37 (cs : List Nat) : nextColors vimBatch vimBatch.init cs = Spec.vimColors [] cs :=
  vim_colors [] cs

/-- Non-vacuity: in `a%b"c` the `%` opens an area that covers everything after it. -/
example : nextColors vimBatch vimBatch.init [97, 37, 98, 34, 99] =
    [defaultForeGroundColor, fgColor 6, fgColor 6, fgColor 6, fgColor 6] := by decide
example : nextColors vimBatch vimBatch.init [34, 97, 34, 98] =
    [fgColor 5, fgColor 5, fgColor 5, defaultForeGroundColor] := by decide

/-! ## The colourings of the test programs -/

theorem quote_state (inside outside : Color) (pre : List Nat) (c : Nat) :
    (quoteNext inside outside (pre.count 0x22 % 2 == 1) c).1 = ((pre ++ [c]).count 0x22 % 2 == 1) := by
  unfold quoteNext
  by_cases h : c = 0x22
  · subst h
    simp [List.count_append, odd_succ]
  · have e : List.count 0x22 [c] = 0 := List.count_eq_zero.mpr (by simpa using fun h' => h h'.symm)
    simp [List.count_append, h, e]

theorem quote_color (inside outside : Color) (pre : List Nat) (c : Nat) :
    (quoteNext inside outside (pre.count 0x22 % 2 == 1) c).2 =
      if Spec.inArea 0x22 pre c then inside else outside := by
  have h := quote_state inside outside pre c
  unfold quoteNext at h ⊢
  simp only at h ⊢
  rw [h]
  unfold Spec.inArea
  rw [Bool.or_comm]

/-- Every character gets the colour for quotations if it is inside or on the border of one, else the
other colour. -/
theorem C37_quoting (inside outside : Color) (cs : List Nat) :
    nextColors (quoting inside outside) (quoting inside outside).init cs =
      (List.range cs.length).map (fun i =>
        if Spec.inArea 0x22 (cs.take i) (cs.getD i 0) then inside else outside) := by
  have key : ∀ (pre cs : List Nat), nextColors (quoting inside outside) (pre.count 0x22 % 2 == 1) cs =
      (List.range cs.length).map (fun i =>
        if Spec.inArea 0x22 (pre ++ cs.take i) (cs.getD i 0) then inside else outside) := by
    intro pre cs
    induction cs generalizing pre with
    | nil => rfl
    | cons c cs ih =>
      show (quoteNext inside outside _ c).2 :: nextColors (quoting inside outside) (quoteNext inside outside _ c).1 cs = _
      rw [quote_color, quote_state, ih, List.length_cons, List.range_succ_eq_map, List.map_cons, List.map_map]
      simp [Function.comp_def]
      exact fun _ _ => rfl
  exact key [] cs

example : nextColors colorSgr colorSgr.init [97, 34, 98, 34, 99] =
    [sgr4 0 37 40 1, sgr4 0 35 40 1, sgr4 0 35 40 1, sgr4 0 35 40 1, sgr4 0 37 40 1] := by decide

end Readline
