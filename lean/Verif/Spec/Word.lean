import Verif.Spec.Text
/-!
# White space, words and quotation marks
-/
namespace Readline.Spec

/-- The code points with the property White_Space (Unicode, PropList.txt). -/
def White (c : Char) : Prop :=
  c.toNat ∈ [0x09, 0x0A, 0x0B, 0x0C, 0x0D, 0x20, 0x85, 0xA0, 0x1680, 0x2000, 0x2001, 0x2002, 0x2003,
    0x2004, 0x2005, 0x2006, 0x2007, 0x2008, 0x2009, 0x200A, 0x2028, 0x2029, 0x202F, 0x205F, 0x3000]

instance (c : Char) : Decidable (White c) := by unfold White; infer_instance

/-- A unit that is one white-space character. -/
def Blank (u : Bytes) : Prop := ∃ c, White c ∧ u = utf8 [c]

/-- The quotation mark that is open after the text, if any: a quotation mark opens a quotation, the
same one closes it. -/
def openQuote (marks : List Nat) : List Char → Option Char → Option Char
  | [], q => q
  | c :: cs, none => openQuote marks cs (if c.toNat ∈ marks then some c else none)
  | c :: cs, some q => openQuote marks cs (if c = q then none else some q)

/-- White space ends a word unless it is inside a quotation. -/
def EndsWord (marks : List Nat) (before : List Char) (c : Char) : Prop :=
  White c ∧ openQuote marks (before ++ [c]) none = none

instance (marks : List Nat) (before : List Char) (c : Char) : Decidable (EndsWord marks before c) := by
  unfold EndsWord; infer_instance

/-- `w` is the word at the end of the text `a ++ w`: no character of it ends a word, and the one
before it does. -/
structure WordAt (marks : List Nat) (a w : List Char) : Prop where
  inner : ∀ x c y, w = x ++ c :: y → ¬ EndsWord marks (a ++ x) c
  outer : a = [] ∨ ∃ b c, a = b ++ [c] ∧ EndsWord marks b c

/-- There is only one such word. -/
theorem WordAt.unique {marks : List Nat} {a w a' w' : List Char} (h : WordAt marks a w)
    (h' : WordAt marks a' w') (e : a ++ w = a' ++ w') : a = a' ∧ w = w' := by
  have key : ∀ {a w a' w' : List Char}, WordAt marks a w → WordAt marks a' w' →
      a ++ w = a' ++ w' → a.length ≤ a'.length := by
    intro a w a' w' h h' e
    rcases h.outer with rfl | ⟨b, c, rfl, hc⟩
    · simp
    · rcases Nat.lt_or_ge a'.length (b ++ [c]).length with hlt | hge
      · exfalso
        have hp : a' <+: b := by
          have h1 : a' <+: b ++ [c] ++ w := e ▸ List.prefix_append _ _
          have h2 : b <+: b ++ [c] ++ w := by rw [List.append_assoc]; exact List.prefix_append _ _
          refine List.prefix_of_prefix_length_le h1 h2 ?_
          simp at hlt
          omega
        obtain ⟨x, rfl⟩ := hp
        have hw : w' = x ++ c :: w := by
          have : a' ++ w' = a' ++ (x ++ c :: w) := by rw [← e]; simp
          exact List.append_cancel_left this
        exact h'.inner x c w hw hc
      · exact hge
  have hl : a.length = a'.length := Nat.le_antisymm (key h h' e) (key h' h e.symm)
  exact List.append_inj e hl

end Readline.Spec
