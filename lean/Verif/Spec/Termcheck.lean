import Verif.Model.Termcheck
/-!
# Which terminals readline knows
-/
namespace Readline.Spec

/-- The terminals for which readline assumes that they join characters. -/
inductive Terminal where
  | windowsTerminal
  | wezTerm
  | contour
deriving DecidableEq

/-- The environment names this terminal.  Windows Terminal passes its variables on to Visual Studio
Code when that is started from it. -/
def Names (e : String → String) : Terminal → Prop
  | .windowsTerminal => e "WT_SESSION" ≠ "" ∧ e "WT_PROFILE_ID" ≠ "" ∧ e "VSCODE_PID" = ""
  | .wezTerm => e "TERM_PROGRAM" = "WezTerm"
  | .contour => e "TERMINAL_NAME" = "contour"

/-- No terminal that readline knows. -/
def Unnamed (e : String → String) : Prop := ∀ t, ¬ Names e t

/-- The variables that matter. -/
def variables : List String := ["VSCODE_PID", "WT_SESSION", "WT_PROFILE_ID", "TERM_PROGRAM", "TERMINAL_NAME"]

/-- What is assumed of the Unicode tables: ASCII characters are narrow. -/
def Latin (kind : Nat → WidthKind) : Prop := ∀ r, 0x20 ≤ r → r ≤ 0x7E → kind r = .narrow

/-- What is assumed of the Unicode tables: no variation selector or enclosing mark is below U+0300. -/
def HighMarks (varSel : Nat → Bool) : Prop := ∀ r, varSel r = true → 0x300 ≤ r

end Readline.Spec
