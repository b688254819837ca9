import Verif.Spec.Line
import Verif.Model.ReadLine
/-!
# Browsing the history

Positions: 0 is the oldest entry, `len` the line being typed.
-/
namespace Readline.Spec

/-- The position one Up goes to. -/
def up (len : Int) (cycling : Bool) (p : Int) : Int :=
  if len ≤ 0 then p else if 0 < p then p - 1 else if cycling then len else p

/-- The position one Down goes to. -/
def down (len p : Int) : Int := if p < len then p + 1 else p

/-- The entry at a position; empty for the line being typed. -/
def entry (E : Env) (p : Int) : Bytes := if 0 ≤ p then (E.history[p.toNat]?).getD [] else []

/-- The units a text is cut into. -/
def unitsOf (C : Cfg) (t : Bytes) : List Bytes := (stringToMoji C t).map Moji.write

/-- The position a browsing command goes to. -/
def goes (E : Env) (c : Cmd) (p : Int) : Option Int :=
  match c with
  | .previousHistory => some (up E.history.length E.historyCycling p)
  | .nextHistory => some (down E.history.length p)
  | _ => none

end Readline.Spec
