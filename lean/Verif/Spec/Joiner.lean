import Verif.Model.Moji
/-!
# Specification vocabulary: code points that attach to the one before

Which code points a terminal with the given features joins to the previous character.
-/
namespace Readline.Spec

/-- `r` attaches to the character before it: a join control, a variation selector (or
enclosing mark) or a skin-tone modifier, each if the terminal supports it. -/
def Joins (C : Cfg) (r : Nat) : Prop :=
  (C.zwjOk = true ∧ (r = 0x200C ∨ r = 0x200D)) ∨ (C.varOk = true ∧ C.varSel r = true) ∨
  (C.modOk = true ∧ 0x1F3FB ≤ r ∧ r ≤ 0x1F3FF)

instance (C : Cfg) (r : Nat) : Decidable (Joins C r) := by unfold Joins; infer_instance

/-- No attaching code point stands before a tab. -/
def TabsFirst (C : Cfg) (rs : List Nat) : Prop :=
  ∀ pre post, rs = pre ++ 9 :: post → ∀ r ∈ pre, ¬ Joins C r

end Readline.Spec
