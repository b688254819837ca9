import Verif.Spec.Row
/-!
# What the row should show
-/
namespace Readline
open Spec

/-- The units of the line, tabs with their columns. -/
def St.mojis (s : St) : List Moji := s.buf.map Cell.moji

/-- The units `lo..hi`. -/
def St.between (s : St) (lo hi : Int) : List Moji := (s.mojis.take hi.toNat).drop lo.toNat

namespace Spec

/-- All units of the line take the same number of columns. -/
def SameWidths (E : Env) (s : St) : Prop := ∃ k, ∀ m ∈ s.mojis, m.width E.cfg = k

/-- The row shows the line:

* from the column behind the prompt on, the units from `ViewStart` to the cursor, some more units
  behind the cursor, perhaps a prediction, and then nothing;
* all of that takes fewer columns than the view has;
* the terminal cursor stands behind the units left of the cursor;
* what is shown behind the line is the stored prediction, as far as it fits, and only when the
  cursor is at the end of the line, and only with `PredictColor`;
* if all units are equally wide, no further unit of the line would have fitted. -/
structure Shows (E : Env) (s : St) (r : Row) : Prop where
  low : 0 ≤ s.viewStart
  mid : s.viewStart ≤ s.cursor
  high : s.cursor ≤ s.len
  col : r.col = s.topColumn + columns E.cfg (s.between s.viewStart s.cursor)
  cells : ∃ right pred, right <+: s.between s.cursor s.len ∧
    columns E.cfg (s.between s.viewStart s.cursor ++ right ++ pred) < s.viewWidth ∧
    (∀ x, s.topColumn ≤ x →
      r.cells x = layout E.cfg (s.between s.viewStart s.cursor ++ right ++ pred) s.topColumn x) ∧
    (pred = [] ∨ s.cursor = s.len ∧ pred <+: s.suffixList) ∧ (E.predictColor.1 = [] → pred = []) ∧
    (SameWidths E s → ∀ m tail, s.between s.cursor s.len = right ++ m :: tail →
      s.viewWidth ≤ columns E.cfg (s.between s.viewStart s.cursor ++ right) + m.width E.cfg)

/-- Where the display can be trusted: no tabs (their columns may change with a repaint), a view
wider than any unit, and no unit more than twice as wide as another. -/
structure Fine (E : Env) (s : St) : Prop where
  tabs : ∀ p, Moji.tab p ∉ s.mojis
  view : 0 < s.viewWidth
  narrow : ∀ m ∈ s.mojis, m.width E.cfg < s.viewWidth
  even : ∃ k, ∀ m ∈ s.mojis, k ≤ m.width E.cfg ∧ m.width E.cfg ≤ 2 * k

end Spec
end Readline
