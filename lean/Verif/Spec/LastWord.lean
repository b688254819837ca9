import Verif.Spec.Strings
/-!
# The words before the cursor, for completion
-/
namespace Readline.Spec

/-- A unit that separates words: a space, tab, carriage return, line feed, vertical tab or form
feed. -/
def Separator (c : Bytes) : Prop := Occurs c [0x20, 0x09, 0x0D, 0x0A, 0x0B, 0x0C]

/-- A unit that is not a quotation mark and occurs among the delimiters. -/
def Delim (quotes del : Bytes) (c : Bytes) : Prop :=
  position c quotes = none ∧ Occurs c del

/-- One of the quotation marks occurs an odd number of times in these units.  (Marks behind the
64th byte of the list of marks do not count: the bits of an `int` tell which are open.) -/
def OpenQuote (quotes : Bytes) (us : List Bytes) : Prop :=
  ∃ j < 64, us.countP (fun c => position c quotes == some j) % 2 = 1

/-- A word: it does not begin with a blank, and blanks and delimiters stand only within
quotation marks. -/
structure IsWord (quotes del : Bytes) (w : List Bytes) : Prop where
  ne : w ≠ []
  head : ∀ c, w.head? = some c → ¬ Separator c
  quoted : ∀ a c r, w = a ++ c :: r → position c quotes = none →
    Separator c ∨ Occurs c del → OpenQuote quotes a

/-- The units `l` end between two words; `ws` are the words in them without the quotation marks,
each with the position of its first unit:

* blanks are skipped;
* a word ends at a blank outside quotation marks;
* or at a delimiter outside quotation marks, which is a word of its own.  Where a delimiter stands
  at the beginning of a word, that word is empty. -/
inductive Cut (quotes del : Bytes) : List Bytes → List (Nat × Bytes) → Prop where
  | start : Cut quotes del [] []
  | blank {l ws c} : Cut quotes del l ws → Separator c → Cut quotes del (l ++ [c]) ws
  | word {l ws w c} : Cut quotes del l ws → IsWord quotes del w → ¬ OpenQuote quotes w →
      Separator c → position c quotes = none →
      Cut quotes del (l ++ w ++ [c]) (ws ++ [(l.length, without w.flatten quotes)])
  | delim {l ws w c} : Cut quotes del l ws → (w = [] ∨ IsWord quotes del w) → ¬ OpenQuote quotes w →
      ¬ Separator c → Delim quotes del c →
      Cut quotes del (l ++ w ++ [c])
        (ws ++ [(l.length, without w.flatten quotes), (l.length + w.length, c)])

/-- The words in the units `l`; the last one may not be finished. -/
inductive Words (quotes del : Bytes) : List Bytes → List (Nat × Bytes) → Prop where
  | cut {l ws} : Cut quotes del l ws → Words quotes del l ws
  | last {l ws w} : Cut quotes del l ws → IsWord quotes del w →
      Words quotes del (l ++ w) (ws ++ [(l.length, without w.flatten quotes)])

/-- Where the last word begins. -/
def startOfLast (ws : List (Nat × Bytes)) : Nat := (ws.getLast?.map Prod.fst).getD 0

end Readline.Spec
