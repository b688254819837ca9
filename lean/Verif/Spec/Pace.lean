import Verif.Spec.Ink
import Verif.Spec.Inert
import Verif.Spec.Glass
import Verif.Model.ReadLine
/-!
# In which order colours are written
-/
namespace Readline.Spec

/-- What a session writes as it is, but for the colours of predictions. -/
def Uttered (E : Env) (b : Bytes) : Prop :=
  PromptText E b ∨ (∃ e, E.promptErr = some e ∧ b = e ++ [0x0A, 0x24, 0x20]) ∨ b = [0x07] ∨ b = [0x0A] ∨
  (∃ f rc, E.lineFeed = some f ∧ b = f rc) ∨
  b = [0x1B, 0x5B, 0x31, 0x3B, 0x31, 0x48, 0x1B, 0x5B, 0x32, 0x4A] ∨
  ∃ k K f l, lookupCommand E k = .completion K ∧ K.box = some f ∧ b = f l

/-- Neither text nor a unit nor a colour. -/
def wordless : Tok → Bool
  | .glyph _ | .sgr _ | .lit _ => false
  | _ => true

/-- Units and colours, with the default colour in force in the end. -/
def Lined (E : Env) (ts : List Tok) : Prop :=
  (∀ t ∈ ts, (∃ m, t = .glyph m) ∨ ∃ d, t = .sgr d) ∧ ∀ c, inkAfter c ts = some E.coloring.defaultColor

/-- Anything a session writes, in any order:
* pieces of a line, followed by the default colour;
* predictions, between the two strings of `PredictColor`;
* text found by the incremental search;
* the prompt and other given text;
* control sequences that are not colours. -/
inductive Strewn (E : Env) : List Tok → Prop
  | nil : Strewn E []
  | append {a c} : Strewn E a → Strewn E c → Strewn E (a ++ c)
  | wordless (t) : wordless t = true → Strewn E [t]
  | said (b) : Uttered E b → Strewn E [.lit b]
  | line (ts) : Lined E ts → Strewn E ts
  | predicted (ms : List Moji) : E.predictColor.1 ≠ [] →
      Strewn E ([.lit E.predictColor.1] ++ ms.map .glyph ++ [.lit E.predictColor.2])
  | search (ms : List Moji) : Strewn E (ms.map .glyph)

/-- What is written without a line behind it: the bell, a line feed, or what is given for it. -/
def Bare (E : Env) (b : Bytes) : Prop := b = [0x07] ∨ b = [0x0A] ∨ ∃ f rc, E.lineFeed = some f ∧ b = f rc

/-- The same with everything that may colour covered by a piece of the line: only the bell and what ends the line, text found by the incremental
search and control sequences that are not colours are written without a piece of the line behind them. -/
inductive Paced (E : Env) : List Tok → Prop
  | nil : Paced E []
  | append {a c} : Paced E a → Paced E c → Paced E (a ++ c)
  | wordless (t) : wordless t = true → Paced E [t]
  | bare (b) : Bare E b → Paced E [.lit b]
  | drawn {a c} : Strewn E a → Lined E c → Paced E (a ++ c)
  | search (ms : List Moji) : Paced E (ms.map .glyph)

/-! ## What is done to the pen -/

variable {P : Type}

/-- Received between two sequences, these bytes change the pen from `p` to `q`, and leave no sequence unfinished. -/
def Brings (ren : List Nat → P → P) (adv : Rune → Int) (b : Bytes) (p q : P) : Prop :=
  ∀ g : Glass P, g.vt.mode = .ground → g.pen = p → (g.run ren adv b).vt.mode = .ground ∧ (g.run ren adv b).pen = q

/-- Received between two sequences, these bytes are characters, and leave no sequence unfinished. -/
def Rounded (ren : List Nat → P → P) (adv : Rune → Int) (b : Bytes) : Prop :=
  ValidUtf8 b ∧ ∀ p, ∃ q, Brings ren adv b p q

/-- No given text leaves a sequence unfinished; the default colour makes every pen one of `S`; what is written at the end of the line
does not lead out of `S`. -/
structure PenRule (ren : List Nat → P → P) (adv : Rune → Int) (E : Env) (S : P → Prop) : Prop where
  default : ∀ p, S (ren E.coloring.defaultColor.params p)
  said : ∀ b, Uttered E b → Rounded ren adv b
  predicted : E.predictColor.1 ≠ [] → Rounded ren adv E.predictColor.1 ∧ Rounded ren adv E.predictColor.2
  ends : ∀ f rc, E.lineFeed = some f → ∀ p, S p → ∃ q, Brings ren adv (f rc) p q ∧ S q

/-- Nothing given to readline to be written has an escape sequence in it. -/
def Unescaped (E : Env) : Prop :=
  (∀ b, PromptText E b → ValidUtf8 b ∧ Over (fun r => r ≠ 0x1B) b) ∧
  (∀ e, E.promptErr = some e → ValidUtf8 e ∧ Over (fun r => r ≠ 0x1B) e) ∧
  (∀ f rc, E.lineFeed = some f → ValidUtf8 (f rc) ∧ Over (fun r => r ≠ 0x1B) (f rc)) ∧
  ∀ k K f l, lookupCommand E k = .completion K → K.box = some f → ValidUtf8 (f l) ∧ Over (fun r => r ≠ 0x1B) (f l)

/-- Nothing written for the texts edited controls the terminal (see C61). -/
def Inert (E : Env) (w : World) : Prop :=
  (∀ s, Reachable E w s → ∃ ts, s.out = w.out ++ ts ∧ ∀ t ∈ ts, Given E t ∨ Harmless (t.bytes E.cfg)) ∧
  ∀ s r, readLine E w = .ok (s, r) → ∃ ts, s.out = w.out ++ ts ∧ ∀ t ∈ ts, Given E t ∨ Harmless (t.bytes E.cfg)

end Readline.Spec
