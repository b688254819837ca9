import Verif.Spec.Text
/-!
# How a character may be shown

The claim of C63 is stated with this definition; nothing here is defined with the model.
-/
namespace Readline.Spec

/-- The value of an upper-case hexadecimal digit. -/
def digitValue (c : Char) : Option Nat := "0123456789ABCDEF".toList.idxOf? c

/-- The value of a hexadecimal number. -/
def hexNumber (ds : List Char) : Option Nat :=
  ds.foldlM (fun n d => (digitValue d).map (16 * n + ·)) 0

/-- The bytes show the character: as itself; as itself with two columns reserved for it
(blanks, save the cursor, back, the character, restore the cursor); `^A` for U+0001 and so on; or
`<XXXX>`, its number. -/
inductive Depicts : List UInt8 → Char → Prop where
  | itself {c : Char} : 0x20 ≤ c.toNat → Depicts (utf8 [c]) c
  | padded {c : Char} : 0x20 ≤ c.toNat → Depicts (utf8 [' ', ' ', '\x1b', '7', '\x08', '\x08', c, '\x1b', '8']) c
  | caret {c d : Char} : c.toNat < 0x20 → d.toNat = c.toNat + 0x40 → Depicts (utf8 ['^', d]) c
  | number {c : Char} {ds : List Char} : hexNumber ds = some c.toNat → Depicts (utf8 ('<' :: (ds ++ ['>']))) c

end Readline.Spec
