import Verif.Spec.Shown
import Verif.Model.ReadLine
/-!
# Lines that fit however their tabs fall

The width of a tab depends on the column it starts in, and it is known only after a repaint: before
it the tab may have been inserted, or the text before it may have changed.  What can be said without
knowing the column is how wide a tab is at most.
-/
namespace Readline.Spec

/-- The columns a unit takes at most.  `Moji.width` of a tab is 4 minus a remainder whose sign is that
of the column. -/
def most (C : Cfg) : Moji → Int
  | .tab _ => 7
  | m => m.width C

def mostOf (C : Cfg) : List Moji → Int
  | [] => 0
  | m :: ms => most C m + mostOf C ms

/-- The whole line fits, however its tabs fall. -/
def Ample (E : Env) (s : St) : Prop := mostOf E.cfg s.mojis < s.viewWidth

/-- The row shows the whole line and nothing else from the column behind the prompt on, and the terminal
cursor stands behind the units left of the cursor. -/
structure Entire (E : Env) (s : St) (r : Row) : Prop where
  start : s.viewStart = 0
  low : 0 ≤ s.cursor
  high : s.cursor ≤ s.len
  col : r.col = s.topColumn + columns E.cfg (s.between 0 s.cursor)
  cells : ∀ x, s.topColumn ≤ x → r.cells x = layout E.cfg s.mojis s.topColumn x

end Readline.Spec
