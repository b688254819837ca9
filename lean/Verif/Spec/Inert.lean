import Verif.Spec.Source
import Verif.Spec.Seen
/-!
# Bytes that cannot control a terminal
-/
namespace Readline.Spec

/-- The control characters: below U+0020, and from U+007F to U+009F. -/
def Control (r : Nat) : Prop := r < 0x20 ∨ (0x7F ≤ r ∧ r ≤ 0x9F)

/-- UTF-8 without control characters. -/
def Textual (b : Bytes) : Prop := ValidUtf8 b ∧ Over (fun r => ¬ Control r) b

/-- Text without control characters, some of it perhaps written over blanks: the blanks, `ESC 7`
(remember the place), as many backspaces, the text, `ESC 8` (go to the place remembered). -/
inductive Harmless : Bytes → Prop where
  | text {b : Bytes} : Textual b → Harmless b
  | padded {b : Bytes} (n : Nat) : Textual b →
      Harmless (List.replicate n 0x20 ++ [0x1B, 0x37] ++ List.replicate n 0x08 ++ b ++ [0x1B, 0x38])
  | append {a b : Bytes} : Harmless a → Harmless b → Harmless (a ++ b)

/-- Output that does not depend on the texts edited: control sequences of readline itself, the prompt,
the colours of the prediction, what is written at the end, and the lists of the completion. -/
def Given (E : Env) : Tok → Prop
  | .glyph _ => False
  | .lit b => PromptText E b ∨ (∃ e, E.promptErr = some e ∧ b = e ++ [0x0A, 0x24, 0x20]) ∨
    b = E.predictColor.1 ∨ b = E.predictColor.2 ∨ b = [0x07] ∨ b = [0x0A] ∨
    (∃ f rc, E.lineFeed = some f ∧ b = f rc) ∨
    b = [0x1B, 0x5B, 0x31, 0x3B, 0x31, 0x48, 0x1B, 0x5B, 0x32, 0x4A] ∨
    ∃ k K f l, lookupCommand E k = .completion K ∧ K.box = some f ∧ b = f l
  | _ => True

end Readline.Spec
