import Verif.Model.Buffer
/-!
# Parts of texts

What completion asks about texts, without the functions of the model.
-/
namespace Readline.Spec

/-- `c` occurs in `t`. -/
def Occurs (c t : Bytes) : Prop := c <:+: t

/-- Where `c` occurs first in `t`. -/
def position (c t : Bytes) : Option Nat :=
  (List.range (t.length + 1)).find? fun j => c.isPrefixOf (t.drop j)

/-- The text without the characters that occur in `q`. -/
def without (t q : Bytes) : Bytes := ((runesOf t).filter fun r => decide (r ∉ runesOf q)).flatMap encodeRune

/-- The same characters, ignoring case. -/
def sameIgnoringCase (U : Uni) (s t : Bytes) : Bool := decide ((runesOf s).map U.fold = (runesOf t).map U.fold)

/-- One of the characters of `q` occurs in `t`. -/
def hasOneOf (t q : Bytes) : Bool := decide (∃ r ∈ runesOf t, r ∈ runesOf q)

end Readline.Spec
