import Verif.Spec.Word
/-!
# Blanks at the ends of a text
-/
namespace Readline.Spec

/-- `u` is `t` without the blanks in front and behind. -/
def Stripped (t u : List UInt8) : Prop :=
  (∃ a z : List Char, (∀ c ∈ a, White c) ∧ (∀ c ∈ z, White c) ∧ t = utf8 a ++ u ++ utf8 z) ∧
  ∀ c, White c → ¬ utf8 [c] <+: u ∧ ¬ utf8 [c] <:+ u

/-- The newest line of the history that, blanks aside, begins as `u` does, blanks aside; and what it goes on with. -/
def Continues (history : List (List UInt8)) (u rest : List UInt8) : Prop :=
  ∃ older line newer, history = older ++ line :: newer ∧ Stripped line (u ++ rest) ∧
    ∀ h ∈ newer, ∀ v, Stripped h v → ¬ u <+: v

/-- The same for characters. -/
def strip (t : List Char) : List Char :=
  ((t.dropWhile fun c => decide (White c)).reverse.dropWhile fun c => decide (White c)).reverse

/-- The newest line of the history that, blanks aside, begins as the text does, blanks aside; from there on. -/
def strippedRest (history : List (List Char)) (t : List Char) : List Char :=
  match history.reverse.find? (fun h => (strip t).isPrefixOf (strip h)) with
  | some h => (strip h).drop (strip t).length
  | none => []

end Readline.Spec
