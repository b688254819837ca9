import Verif.Model.ReadLine
/-!
# How much is printed between two waits for a key

Output is a list of tokens; the editor waits for a key at the tokens `await`.  What is counted are
the units of text shown and the changes of colour.  Prompts, the two strings of `PredictColor`, the
bell and lists of candidates are other tokens: their size is chosen by the program, not by the text
edited.
-/
namespace Readline.Spec

/-- Is a unit of text shown? -/
def Tok.shows : Tok → Bool
  | .glyph _ => true
  | _ => false

/-- Is the colour changed? -/
def Tok.tints : Tok → Bool
  | .sgr _ => true
  | _ => false

/-- The output holds at most `n` units of text and `k` changes of colour in every stretch in which
the editor does not wait for a key. -/
def Sparse (n k : Nat) (out : List Tok) : Prop :=
  ∀ b, b <:+: out → Tok.await ∉ b → b.countP Tok.shows ≤ n ∧ b.countP Tok.tints ≤ k

/-- The units that can stand in one row of a terminal: three columns stay free for the cursor and
one for the next unit; at least one unit is always allowed. -/
def perRow (termWidth : Int) : Nat := max 1 (termWidth - 4).toNat

end Readline.Spec
