import Verif.Spec.Sign
/-!
# Coloured prompts
-/
namespace Readline.Spec

/-- What a prompt is made of: changes of the colour, and characters. -/
inductive Stroke where
  | colour (ps : Bytes)
  | letter (c : Char)

def Stroke.bytes : Stroke → Bytes
  | .colour ps => [0x1B, 0x5B] ++ ps ++ [0x6D]
  | .letter c => utf8 [c]

/-- Colours are numbers; characters can be seen and need no blanks beside them. -/
def Stroke.Fine (C : Cfg) : Stroke → Prop
  | .colour ps => ∀ x ∈ ps, 0x30 ≤ x.toNat ∧ x.toNat ≤ 0x3B
  | .letter c => Plain C c.toNat ∧ 0x20 ≤ c.toNat ∧ ¬ Padded C c.toNat

/-- What is seen of it. -/
def Stroke.seen : Stroke → List Rune
  | .colour _ => []
  | .letter c => [c.toNat]

/-- What comes first: nothing, the beginning of the next row, or the beginning of the same one. -/
inductive Approach where
  | straight
  | below
  | back

def Approach.bytes : Approach → Bytes
  | .straight => []
  | .below => [0x0A]
  | .back => [0x0D]

/-- The bytes of the prompt. -/
def poster (l : Approach) (ss : List Stroke) : Bytes := l.bytes ++ ss.flatMap Stroke.bytes

/-- What it looks like. -/
def posterSign (l : Approach) (ss : List Stroke) : Sign :=
  ⟨match l with | .below => true | _ => false, ss.flatMap Stroke.seen⟩

end Readline.Spec
