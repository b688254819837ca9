import Verif.Spec.Word
/-!
# The words of a text
-/
namespace Readline.Spec

/-- The words of a text are what is between the blanks. -/
inductive Fields : List Char → List (List Char) → Prop where
  | none {z} : (∀ c ∈ z, White c) → Fields z []
  | word {a w t ws} : (∀ c ∈ a, White c) → w ≠ [] → (∀ c ∈ w, ¬ White c) → (∀ c, t.head? = some c → White c) →
      Fields t ws → Fields (a ++ w ++ t) (w :: ws)

end Readline.Spec
