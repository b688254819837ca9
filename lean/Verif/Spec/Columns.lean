import Verif.Model.Moji
/-!
# How many columns units take one after the other
-/
namespace Readline.Spec

/-- The unit when it starts in column `c`: only tabs depend on that. -/
def startingAt (c : Int) : Moji → Moji
  | .tab _ => .tab (toInt16 c)
  | .zwj a b => .zwj (startingAt c a) b
  | .modi a b => .modi (startingAt c a) b
  | .vari a b => .vari (startingAt c a) b
  | m => m

/-- The column behind units written one after the other from column `c` on. -/
def columnAfter (C : Cfg) : List Moji → Int → Int
  | [], c => c
  | m :: ms, c => columnAfter C ms (c + (startingAt c m).width C)

end Readline.Spec
