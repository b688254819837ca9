import Verif.Spec.Text
/-!
# What a prompt consists of
-/
namespace Readline.Spec

/-- An ASCII letter. -/
def letter (b : UInt8) : Prop := (0x41 ≤ b.toNat ∧ b.toNat ≤ 0x5A) ∨ (0x61 ≤ b.toNat ∧ b.toNat ≤ 0x7A)

/-- The parts of a prompt. -/
inductive Piece where
  /-- an ordinary character -/
  | char (c : Char)
  /-- carriage return or line feed -/
  | lineEnd (lf : Bool)
  /-- backspace -/
  | back
  /-- ESC, some bytes, and a letter: `ESC [ 31 m` -/
  | csi (body : List UInt8) (final : UInt8)
  /-- ESC ], some bytes, and BEL: a window title -/
  | osc (body : List UInt8)

/-- Bytes that may stand inside an escape sequence. -/
def inside (b : UInt8) : Prop := b ≠ 0x0D ∧ b ≠ 0x0A ∧ b ≠ 0x1B

/-- A piece is what it is meant to be. -/
def Piece.Good : Piece → Prop
  | .char c => c ≠ '\r' ∧ c ≠ '\n' ∧ c ≠ '\x1b' ∧ c ≠ '\x08'
  | .lineEnd _ => True
  | .back => True
  | .csi body f => letter f ∧ ∀ b ∈ body, inside b ∧ ¬ letter b ∧ b ≠ 0x5D
  | .osc body => ∀ b ∈ body, inside b ∧ b ≠ 0x07

/-- The bytes of a piece. -/
def Piece.bytes : Piece → List UInt8
  | .char c => utf8 [c]
  | .lineEnd lf => if lf then [0x0A] else [0x0D]
  | .back => [0x08]
  | .csi body f => 0x1B :: body ++ [f]
  | .osc body => 0x1B :: 0x5D :: body ++ [0x07]

/-- The characters that stand on the last line after a piece. -/
def Piece.apply (line : List Char) : Piece → List Char
  | .char c => line ++ [c]
  | .lineEnd _ => []
  | .back => line.dropLast
  | .csi _ _ => line
  | .osc _ => line

/-- The last line of a prompt. -/
def lastLine (ps : List Piece) : List Char := ps.foldl Piece.apply []

/-- The bytes of a prompt. -/
def promptBytes (ps : List Piece) : List UInt8 := ps.flatMap Piece.bytes

/-- No backspace stands behind U+FFFD. -/
def NoBackOverReplacement (ps : List Piece) : Prop :=
  ∀ a c, ps = a ++ .back :: c → (lastLine a).getLast? ≠ some '�'

/-! ## Prompts of any bytes -/

/-- The parts of a prompt that need not be text. -/
inductive Scrap where
  /-- a byte of no special meaning -/
  | byte (x : UInt8)
  /-- carriage return or line feed -/
  | lineEnd (lf : Bool)
  /-- backspace -/
  | back
  /-- ESC, some bytes, and a letter -/
  | seq (body : List UInt8) (final : UInt8)
  /-- ESC, some bytes, `]`, some bytes, and BEL -/
  | title (pre body : List UInt8)

/-- The first bytes after ESC. -/
def NoEnd (body : List UInt8) : Prop := ∀ b ∈ body, ¬ letter b ∧ b ≠ 0x5D

/-- A part is what it is meant to be. -/
def Scrap.Sound : Scrap → Prop
  | .byte x => x ≠ 0x0D ∧ x ≠ 0x0A ∧ x ≠ 0x1B ∧ x ≠ 0x08
  | .lineEnd _ => True
  | .back => True
  | .seq body f => NoEnd body ∧ letter f
  | .title pre body => NoEnd pre ∧ ∀ b ∈ body, b ≠ 0x07

/-- The bytes of a part. -/
def Scrap.bytes : Scrap → List UInt8
  | .byte x => [x]
  | .lineEnd lf => if lf then [0x0A] else [0x0D]
  | .back => [0x08]
  | .seq body f => 0x1B :: body ++ [f]
  | .title pre body => 0x1B :: pre ++ 0x5D :: body ++ [0x07]

/-- A line end inside a sequence begins a new line too. -/
def wipe (t l : List UInt8) : List UInt8 := if 0x0D ∈ t ∨ 0x0A ∈ t then [] else l

/-- What a backspace leaves: the last character goes, if the bytes end with one and it is not U+FFFD. -/
def BackFrom (l l' : List UInt8) : Prop :=
  (∃ c, c ≠ '\uFFFD' ∧ l = l' ++ utf8 [c]) ∨ (l' = l ∧ ∀ a c, l = a ++ utf8 [c] → c = '\uFFFD')

/-- What stands on the last line after a part. -/
def Scrap.Turns : Scrap → List UInt8 → List UInt8 → Prop
  | .byte x, l, l' => l' = l ++ [x]
  | .lineEnd _, _, l' => l' = []
  | .back, l, l' => BackFrom l l'
  | .seq body _, l, l' => l' = wipe body l
  | .title pre body, l, l' => l' = wipe (pre ++ body) l

/-- What stands on the last line after all parts. -/
def TurnsAll : List Scrap → List UInt8 → List UInt8 → Prop
  | [], l, l' => l' = l
  | p :: ps, l, l' => ∃ m, p.Turns l m ∧ TurnsAll ps m l'

/-- A sequence that does not end. -/
def Unended (t : List UInt8) : Prop :=
  t = [] ∨ (∃ body, t = 0x1B :: body ∧ NoEnd body) ∨
    ∃ pre body, t = 0x1B :: pre ++ 0x5D :: body ∧ NoEnd pre ∧ ∀ b ∈ body, b ≠ 0x07

end Readline.Spec
