import Verif.Model.Completion
import Verif.Spec.Text
/-!
# Prefixes that ignore case
-/
namespace Readline.Spec

/-- `p` is a prefix of `s` when letter case is ignored: rune by rune the upper-case forms are
the same. -/
def FoldPrefix (U : Uni) (p s : Bytes) : Prop :=
  (runesOf p).map U.upper <+: (runesOf s).map U.upper

/-- Runes of these texts that differ in case only take equally many bytes. -/
def SameSize (U : Uni) (l : List Bytes) : Prop :=
  ∀ s ∈ l, ∀ t ∈ l, ∀ a ∈ runesOf s, ∀ b ∈ runesOf t, U.upper a = U.upper b →
    (encodeRune a).length = (encodeRune b).length

end Readline.Spec
