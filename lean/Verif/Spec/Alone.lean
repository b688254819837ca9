import Verif.Model.Late
/-!
# Calls of `ReadLine` one after the other, each by itself

No goroutine of an earlier call is there: each call begins with what the call before it left in the editor (`World`).
-/
namespace Readline.Spec

/-- After calls with the results `rs` the present call, by itself, is in the state `g`.  `may`: how the program may set up the
editor for a further call. -/
inductive Alone (C : Cut) (joins early : Bool) (may : Env → Prop) (E₀ : Env) (w : World) : List RLRes → (E : Env) → G (C.code E) → Prop where
  | first {g} : Steps (C.code E₀) joins early (G.init _ E₀ w) g → Alone C joins early may E₀ w [] E₀ g
  | next {rs E g r E' g'} : may E' → Alone C joins early may E₀ w rs E g → g.ed = .returned (.ok r) → (∀ k, g.wa ≠ .crashed k) →
      Steps (C.code E') joins early (G.init _ E' g.mem.world.leave) g' → Alone C joins early may E₀ w (rs ++ [r]) E' g'

/-- The goroutine does nothing more than end. -/
def PastIt {R : Type} : LatePc R → Prop
  | .stopping | .stopped => True
  | _ => False

/-- Everything but the output. -/
def SameButOut (s t : St) : Prop := { s with out := [] } = { t with out := [] }

end Readline.Spec
