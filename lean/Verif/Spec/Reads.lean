import Verif.Spec.Text
/-!
# Bytes that need not be text

How bytes are read as characters: whole characters as they are, and every byte at which none begins
as U+FFFD.  Lean's own UTF-8 encoder says what a character is.
-/
namespace Readline.Spec

/-- The bytes are read as these characters. -/
inductive ReadAs : List UInt8 → List Char → Prop where
  | nil : ReadAs [] []
  | char {c t cs} : ReadAs t cs → ReadAs (String.utf8EncodeChar c ++ t) (c :: cs)
  | bad {b t cs} : (∀ c : Char, ¬ String.utf8EncodeChar c <+: b :: t) → ReadAs t cs → ReadAs (b :: t) ('�' :: cs)

end Readline.Spec
