import Verif.Model.Moji
/-!
# A terminal: where the cursor goes

The terminal receives bytes, decodes them as UTF-8 and moves its cursor along the row.  It
understands the two control functions the units use besides blanks and backspaces: ESC 7 (save
the position) and ESC 8 (go back to the saved position).  Any other control character makes the
position unknown (`none`): what happens then depends on the terminal.  The right margin is not
part of this (see C27).
-/
namespace Readline.Spec

/-- Position of the cursor and saved position; `esc`: an ESC has been received. -/
structure Screen where
  col : Int
  saved : Int := 0
  esc : Bool := false
deriving Repr, DecidableEq

/-- C0 and C1 control characters and DEL. -/
def isControl (r : Rune) : Bool := decide (r < 0x20) || (decide (0x7F ≤ r) && decide (r ≤ 0x9F))

/-- The terminal receives one code point; `adv` says how far it moves for a printable one. -/
def receive (adv : Rune → Int) (s : Screen) (r : Rune) : Option Screen :=
  if s.esc then
    if r = 0x37 then some { s with esc := false, saved := s.col }
    else if r = 0x38 then some { s with esc := false, col := s.saved }
    else none
  else if r = 0x1B then some { s with esc := true }
  else if r = 0x08 then some { s with col := max 0 (s.col - 1) }
  else if isControl r then none
  else some { s with col := s.col + adv r }

/-- The terminal receives some code points. -/
def receiveAll (adv : Rune → Int) : Screen → List Rune → Option Screen
  | s, [] => some s
  | s, r :: rs => (receive adv s r).bind fun s' => receiveAll adv s' rs

/-- Receiving `bs` moves the cursor by `n` columns, from anywhere. -/
def Moves (adv : Rune → Int) (bs : Bytes) (n : Int) : Prop :=
  ∀ col saved, 0 ≤ col →
    ∃ saved', receiveAll adv { col, saved } (runesOf bs) = some { col := col + n, saved := saved' }

/-- Regional indicators. -/
def regional (r : Rune) : Bool := decide (0x1F1E6 ≤ r) && decide (r ≤ 0x1F1FF)

/-- The terminal agrees with the width table: a code point moves the cursor by the width in the
table, a regional indicator by two columns (readline's own opinion), and a joined pair is as wide
as its parts and the joiner between them together (the default `GetZWJSWidth` takes the joiner
for one column wide).  ASCII is one column wide. -/
structure Agrees (C : Cfg) (adv : Rune → Int) : Prop where
  ascii : ∀ r, 0x20 ≤ r → r ≤ 0x7E → adv r = 1
  table : ∀ r, isControl r = false → regional r = false → r ≠ 0x200D → adv r = C.width r
  region : ∀ r, regional r = true → adv r = 2
  joiner : 0 ≤ adv 0x200D
  joint : ∀ a b, C.zwjWidth a b = a + adv 0x200D + b

/-- Control characters and the joiner have no width in the table (so that they are escaped when
they stand alone), other code points no negative one. -/
structure SaneTable (C : Cfg) : Prop where
  ctrl : ∀ r, 0x7F ≤ r → r ≤ 0x9F → C.width r = 0
  joiner : C.width 0x200D = 0
  nonneg : ∀ r, 0 ≤ C.width r

end Readline.Spec
