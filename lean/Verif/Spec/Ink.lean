import Verif.Model.Buffer
/-!
# Colours

What a `Coloring` is told about the line, the colour it answers for a unit, and which colour the
terminal is set to when a unit is printed.
-/
namespace Readline.Spec

/-- What `Coloring.Next` is told for a unit: its code point; for a joined unit the characters of
its printed form. -/
def toldFor (C : Cfg) : Moji → List Rune
  | .tab _ => [9]
  | .raw r | .esc r | .ri r | .ctrl r | .flag r => [r]
  | m => runesOf (m.print C)

/-- What it is told at position `j` of the line: U+E000 first if the cursor is there. -/
def toldAt (C : Cfg) (line : List Moji) (cursor : Int) (j : Nat) : List Rune :=
  (if (j : Int) = cursor then [0xE000] else []) ++ (line[j]?).elim [] (toldFor C)

/-- What it is told at the positions before `i`. -/
def toldBefore (C : Cfg) (line : List Moji) (cursor : Int) (i : Nat) : List Rune :=
  (List.range i).flatMap (toldAt C line cursor)

/-- The state of the colouring after being told some characters. -/
def afterTold (K : Coloring) (rs : List Rune) : K.σ := rs.foldl (fun σ r => (K.next σ r).1) K.init

/-- Its last answer. -/
def lastAnswer (K : Coloring) (rs : List Rune) : Color :=
  match rs.getLast? with
  | none => 0#64
  | some r => (K.next (afterTold K rs.dropLast) r).2

/-- The colour of unit `i` of the line. -/
def unitColor (C : Cfg) (K : Coloring) (line : List Moji) (cursor : Int) (i : Nat) : Color :=
  lastAnswer K (toldBefore C line cursor (i + 1))

/-- Colours of the units `lo..hi`. -/
def unitColors (C : Cfg) (K : Coloring) (line : List Moji) (cursor : Int) (lo hi : Nat) : List Color :=
  (List.range' lo (hi - lo)).map (unitColor C K line cursor)

/-- The colour in force after a colour sequence was written.  (A sequence that is not positive
writes nothing.) -/
def setInk (c : Option Color) (d : Color) : Option Color := if d.write = [] then c else some d

/-- The colour in force after some output.  Literal text is not looked at. -/
def inkAfter : Option Color → List Tok → Option Color
  | c, [] => c
  | c, .sgr d :: ts => inkAfter (setInk c d) ts
  | c, _ :: ts => inkAfter c ts

/-- The units printed, each with the colour in force. -/
def inked : Option Color → List Tok → List (Moji × Option Color)
  | _, [] => []
  | c, .sgr d :: ts => inked (setInk c d) ts
  | c, .glyph m :: ts => (m, c) :: inked c ts
  | c, _ :: ts => inked c ts

/-- All colours of the colouring are real ones. -/
def Colourful (K : Coloring) : Prop := 0 < K.defaultColor.toInt ∧ ∀ σ r, 0 < (K.next σ r).2.toInt

/-- The output is made of
* pieces of a line, each unit in the colour it has in that line, followed by the default colour;
* predictions, between the two strings of `PredictColor`;
* text found by the incremental search;
* things that are neither units nor colours. -/
inductive Inked (E : Env) : List Tok → Prop
  | nil : Inked E []
  | append {a c} : Inked E a → Inked E c → Inked E (a ++ c)
  | other (t) : (∀ m, t ≠ .glyph m) → (∀ d, t ≠ .sgr d) → Inked E [t]
  | line (line : List Moji) (cursor : Int) (lo hi : Nat) (ts : List Tok) :
      lo ≤ hi → hi ≤ line.length →
      (∀ t ∈ ts, (∃ m, t = .glyph m) ∨ ∃ d, t = .sgr d) →
      (∀ c, (inked c ts).map Prod.fst = (line.take hi).drop lo) →
      (∀ c, (inked c ts).map Prod.snd = (unitColors E.cfg E.coloring line cursor lo hi).map some) →
      (∀ c, inkAfter c ts = some E.coloring.defaultColor) → Inked E ts
  | predicted (ms : List Moji) : E.predictColor.1 ≠ [] →
      Inked E ([.lit E.predictColor.1] ++ ms.map .glyph ++ [.lit E.predictColor.2])
  | search (ms : List Moji) : Inked E (ms.map .glyph)

end Readline.Spec
