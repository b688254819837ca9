import Verif.Spec.Line
/-!
# The line as two halves

The line with its cursor is a pair of lists of units: those left of the cursor and those from the
cursor on.
-/
namespace Readline.Spec

/-- The units left of the cursor are `l`, those from the cursor on are `r`. -/
structure At (s : St) (l r : List Bytes) : Prop where
  units : s.units = l ++ r
  cursor : s.cursor = l.length

theorem At.inside {s : St} {l r : List Bytes} (h : At s l r) :
    0 ≤ s.cursor ∧ s.cursor ≤ s.units.length := by
  rw [h.cursor, h.units]
  simp
  omega

/-- Every cursor inside the line splits it. -/
theorem At.exists {s : St} (h0 : 0 ≤ s.cursor) (h1 : s.cursor ≤ s.units.length) :
    At s (s.units.take s.cursor.toNat) (s.units.drop s.cursor.toNat) where
  units := (List.take_append_drop _ _).symm
  cursor := by rw [List.length_take]; omega

theorem At.unique {s : St} {l r l' r' : List Bytes} (h : At s l r) (h' : At s l' r') :
    l = l' ∧ r = r' := by
  have hlen : l.length = l'.length := by have := h.cursor; have := h'.cursor; omega
  exact List.append_inj (h.units ▸ h'.units) hlen

theorem At.text {s : St} {l r : List Bytes} (h : At s l r) : s.text = l.flatten ++ r.flatten := by
  rw [St.text_units, h.units, List.flatten_append]

end Readline.Spec
