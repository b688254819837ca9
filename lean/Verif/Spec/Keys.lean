import Verif.Spec.Text
/-!
# Specification vocabulary: code points from a rune stream

A terminal may deliver a character as one rune or as a UTF-16 surrogate pair; NUL runes carry
nothing.
-/
namespace Readline.Spec

/-- A UTF-16 surrogate. -/
def Surrogate (r : Nat) : Prop := 0xD800 ≤ r ∧ r < 0xE000

instance (r : Nat) : Decidable (Surrogate r) := by unfold Surrogate; infer_instance

/-- The character of a surrogate pair (U+FFFD if the two do not form one). -/
def pair (hi lo : Nat) : Nat :=
  if 0xD800 ≤ hi ∧ hi < 0xDC00 ∧ 0xDC00 ≤ lo ∧ lo < 0xE000 then
    0x10000 + (hi - 0xD800) * 1024 + (lo - 0xDC00)
  else 0xFFFD

/-- The code points of a rune stream; the first argument is a surrogate still waiting for its
partner. -/
def codePoints : Option Nat → List Nat → List Nat
  | _, [] => []
  | p, 0 :: rs => codePoints p rs
  | some hi, lo :: rs => pair hi lo :: codePoints none rs
  | none, r :: rs => if Surrogate r then codePoints (some r) rs else r :: codePoints none rs

/-- The surrogate left waiting at the end. -/
def waiting : Option Nat → List Nat → Option Nat
  | p, [] => p
  | p, 0 :: rs => waiting p rs
  | some _, _ :: rs => waiting none rs
  | none, r :: rs => if Surrogate r then waiting (some r) rs else waiting none rs

/-- The UTF-16 code units of a character. -/
def utf16 (c : Char) : List Nat :=
  if c.toNat < 0x10000 then [c.toNat]
  else [0xD800 + (c.toNat - 0x10000) / 1024, 0xDC00 + (c.toNat - 0x10000) % 1024]

end Readline.Spec
