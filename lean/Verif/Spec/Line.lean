import Verif.Model.Buffer
/-!
# What is observed of the edited line

`units` is what a user sees of the line: the texts of its units (`Cell.String()`).
`line` keeps the units themselves but forgets the screen column stored in a tab, which only
matters for drawing.
-/
namespace Readline

/-- The texts of the units of the line. -/
def St.units (s : St) : List Bytes := s.buf.map (fun c => c.moji.write)

/-- A unit without the column stored in a tab. -/
def Moji.norm : Moji → Moji
  | .tab _ => .tab 0
  | .zwj a b => .zwj a.norm b.norm
  | .modi a b => .modi a.norm b.norm
  | .vari a b => .vari a.norm b.norm
  | m => m

/-- The units of the line without tab columns. -/
def St.line (s : St) : List Moji := s.buf.map (fun c => c.moji.norm)

/-- The units a string is split into, without tab columns. -/
def segs (C : Cfg) (t : Bytes) : List Moji := (stringToMoji C t).map Moji.norm

/-- The text of a list of units. -/
def lineText (l : List Moji) : Bytes := l.flatMap Moji.write

@[simp] theorem Moji.norm_write (m : Moji) : m.norm.write = m.write := by
  induction m <;> simp_all [Moji.norm, Moji.write]
@[simp] theorem Moji.norm_toRune (m : Moji) : m.norm.toRune? = m.toRune? := by cases m <;> rfl
@[simp] theorem Moji.norm_isSpace (m : Moji) : m.norm.isSpace = m.isSpace := by cases m <;> rfl
@[simp] theorem Moji.norm_norm (m : Moji) : m.norm.norm = m.norm := by
  induction m <;> simp_all [Moji.norm]

theorem cell2string_eq (cs : List Cell) :
    cell2string cs = lineText (cs.map (fun c => c.moji.norm)) := by
  simp [cell2string, lineText, List.flatMap_map]

theorem St.text_eq (s : St) : s.text = lineText s.line := cell2string_eq s.buf

theorem St.units_eq (s : St) : s.units = s.line.map Moji.write := by
  simp [St.units, St.line, Function.comp_def]

theorem St.text_units (s : St) : s.text = s.units.flatten := by
  simp [St.text, cell2string, St.units, List.flatMap]

theorem St.line_length (s : St) : s.line.length = s.buf.length := by simp [St.line]

theorem St.len_eq (s : St) : s.len = s.line.length := by simp [St.len, St.line]

theorem lineText_append (a b : List Moji) : lineText (a ++ b) = lineText a ++ lineText b := by
  simp [lineText]

end Readline
