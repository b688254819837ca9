import Verif.Spec.Plain
import Verif.Model.KeyMap
import Verif.Spec.Vt
/-!
# What a terminal should show of a line of ordinary characters
-/
namespace Readline.Spec

/-- readline puts blanks under these characters before it writes them, because terminals disagree
about their width. -/
def Padded (C : Cfg) (r : Rune) : Prop :=
  (0x2500 ≤ r ∧ r ≤ 0x257F ∧ C.ambWide = true) ∨ (0x1D400 ≤ r ∧ r ≤ 0x1D7FF) ∨ r = 0x1F3F3

/-- The terminal takes ordinary characters for as wide as the table says; ASCII characters take one
column, and control characters have no width in the table. -/
structure AgreesPlain (C : Cfg) (adv : Rune → Int) : Prop where
  ascii : ∀ r, 0x20 ≤ r → r ≤ 0x7E → adv r = 1
  control : ∀ r, 0x7F ≤ r → r ≤ 0x9F → C.width r = 0
  plain : ∀ r, Plain C r → 0x20 ≤ r → ¬ Padded C r → adv r = plainColumns C r
  padded : ∀ r, Plain C r → Padded C r → 1 ≤ adv r ∧ adv r ≤ 2

/-- Column `k` of an ordinary character: a caret and a letter for a control character, blanks where
a padded character turns out to be narrow. -/
def seenOf (adv : Rune → Int) (r : Rune) (k : Int) : Rune × Int :=
  if r < 0x20 then (if k = 0 then (0x5E, 0) else (r + 0x40, 0))
  else if k < adv r then (r, k)
  else (0x20, 0)

/-- Characters one after the other from column `start` on, and nothing behind them. -/
def picture (C : Cfg) (adv : Rune → Int) : List Rune → Int → Int → Sight
  | [], _, _ => none
  | r :: rs, start, x =>
    if start ≤ x ∧ x < start + plainColumns C r then some (seenOf adv r (x - start))
    else picture C adv rs (start + plainColumns C r) x

/-- The columns some ordinary characters take. -/
def textColumns (C : Cfg) : List Rune → Int
  | [] => 0
  | r :: rs => plainColumns C r + textColumns C rs

/-- The terminal shows the line `text` from column `top` on in `room` columns:

* some of the characters before the cursor, some of those behind it, perhaps further characters
  (`hint`) if the cursor is at the end, and nothing else;
* all of it takes fewer than `room` columns;
* if all characters of the line are equally wide, the next one would not have fitted;
* the terminal's cursor stands at the character the editor's cursor stands at. -/
def Displays (C : Cfg) (adv : Rune → Int) (v : Vt) (top room : Int) (text : List Rune) (cursor : Nat)
    (hint : List Rune) : Prop :=
  v.mode = .ground ∧
  ∃ away left right rest more, text = away ++ left ++ right ++ rest ∧ (away ++ left).length = cursor ∧
    (more = [] ∨ right ++ rest = [] ∧ more <+: hint) ∧
    textColumns C (left ++ right ++ more) < room ∧
    (∀ k r tail, (∀ r ∈ text, plainColumns C r = k) → rest = r :: tail →
      room ≤ textColumns C (left ++ right) + plainColumns C r) ∧
    v.col = top + textColumns C left ∧
    ∀ x, top ≤ x → v.cells v.row x = picture C adv (left ++ right ++ more) top x

/-- A colour sequence, or nothing. -/
def Sgr (b : Bytes) : Prop :=
  b = [] ∨ ∃ ps : Bytes, b = [0x1B, 0x5B] ++ ps ++ [0x6D] ∧ ∀ x ∈ ps, 0x30 ≤ x.toNat ∧ x.toNat ≤ 0x3B

/-- Whatever was there before, the terminal is in column `c'` after these bytes. -/
def Lands (adv : Rune → Int) (W : Int) (b : Bytes) (c c' : Int) : Prop :=
  ∀ v : Vt, v.mode = .ground → v.width = W → v.col = c →
    (v.run adv b).mode = .ground ∧ (v.run adv b).col = c'

/-- Text that ends with the terminal ready for more, in a column that depends only on the column
before. -/
def Landed (adv : Rune → Int) (W : Int) (b : Bytes) : Prop :=
  ValidUtf8 b ∧ ∀ c, 0 ≤ c → ∃ c', 0 ≤ c' ∧ Lands adv W b c c'

/-- The prompt, as it is written at the start, and as it is written again after a resize. -/
def PromptText (E : Env) (b : Bytes) : Prop :=
  match E.prompt with
  | none => b = [0x0A, 0x3E, 0x20] ∨ b = [0x0D, 0x3E, 0x20]
  | some p => ∃ n, b = p n ∨ b = (0x0D :: p n).map (fun b => if b = 0x0A then 0x0D else b)

/-- Whatever was there before, these bytes make the row begin with the characters `ps`, and leave the
cursor behind them. -/
def Announces (C : Cfg) (adv : Rune → Int) (W : Int) (b : Bytes) (ps : List Rune) : Prop :=
  ValidUtf8 b ∧ ∀ v : Vt, v.mode = .ground → v.width = W → 0 ≤ v.col →
    (v.run adv b).mode = .ground ∧ (v.run adv b).col = textColumns C ps ∧
    ∀ x, 0 ≤ x → x < textColumns C ps → (v.run adv b).cells (v.run adv b).row x = picture C adv ps 0 x

/-- What the search displays besides the texts: `(i-search)[` and `]:`. -/
def searchHead : List Nat := [0x28, 0x69, 0x2D, 0x73, 0x65, 0x61, 0x72, 0x63, 0x68, 0x29, 0x5B, 0x5D, 0x3A]

/-- A key typed while searching is a control character or in `P`, and so is what the search
displays. -/
def SearchOver (P : Nat → Prop) (input : List Ev) : Prop :=
  (∀ r ∈ searchHead, P r) ∧ ∀ k, .key k ∈ input → isControlRune (decodeRune k).1 = true ∨ P (decodeRune k).1

/-- Searching is done only in characters from `P`, and completion lists nothing. -/
structure Plainly (P : Nat → Prop) (E : Env) (w : World) : Prop where
  search : ∀ q, .key q ∈ w.input → lookupCommand E q = .isearchBackward → SearchOver P w.input
  box : ∀ q K, .key q ∈ w.input → lookupCommand E q = .completion K → K.box = none

end Readline.Spec
