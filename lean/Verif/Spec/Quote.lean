import Verif.Model.Utf8
/-!
# Specification vocabulary: quotation
-/
namespace Readline.Spec

/-- Every quotation mark doubled. -/
def doubleQuotes (t : Bytes) : Bytes := t.flatMap (fun b => if b = 0x22 then [0x22, 0x22] else [b])

/-- A line in quotation marks, inner ones doubled. -/
def quoteLine (t : Bytes) : Bytes := [0x22] ++ doubleQuotes t ++ [0x22]

/-- Two quotation marks become one. -/
def halveQuotes : Bytes → Bytes
  | 0x22 :: 0x22 :: t => 0x22 :: halveQuotes t
  | b :: t => b :: halveQuotes t
  | [] => []

/-- Un-quoting: drop the enclosing marks and halve the inner ones. -/
def unquoteLine (t : Bytes) : Bytes := halveQuotes (t.drop 1).dropLast

/-- Lines joined with CR LF. -/
def joinLines : List Bytes → Bytes
  | [] => []
  | [l] => l
  | l :: ls => l ++ [0x0D, 0x0A] ++ joinLines ls

/-- The text contains no CR LF. -/
def OneLine (l : Bytes) : Prop := ∀ a b, l ≠ a ++ [0x0D, 0x0A] ++ b

end Readline.Spec
