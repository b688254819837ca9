import Verif.Spec.Transcript
import Verif.Model.Reply
/-!
# The dialogue of a program that says what it has read

A line, what the program printed about it in as many rows as it takes, an empty row if the prompt goes down, the next line,
and so on.
-/
namespace Readline.Spec

/-- The columns of characters that are printed. -/
def printedColumns (adv : Rune → Int) : List Rune → Int
  | [] => 0
  | r :: rs => adv r + printedColumns adv rs

/-- Printed characters one after the other from column `start` on, and nothing behind them. -/
def printedRow (adv : Rune → Int) : List Rune → Int → Int → Sight
  | [], _, _ => none
  | r :: rs, start, x => if start ≤ x ∧ x < start + adv r then some (r, x - start) else printedRow adv rs (start + adv r) x

/-- A text in rows of at most `W` columns: a row ends where the next character does not fit. -/
inductive Folded (adv : Rune → Int) (W : Int) : List Rune → List (List Rune) → Prop
  | last {row} : printedColumns adv row ≤ W → Folded adv W row [row]
  | fold {row r text rows} : printedColumns adv row ≤ W → W < printedColumns adv row + adv r → Folded adv W (r :: text) rows →
      Folded adv W (row ++ r :: text) (row :: rows)

/-- Printed rows from `d` rows above the cursor downwards, and nothing else in these rows. -/
def Above (adv : Rune → Int) (v : Vt) : Int → List (List Rune) → Prop
  | _, [] => True
  | d, row :: rows => (∀ x, v.cells (v.row - d) x = printedRow adv row 0 x) ∧ Above adv v (d - 1) rows

/-- Nothing is below the cursor. -/
def Clear (v : Vt) : Prop := ∀ y, v.row < y → ∀ x, v.cells y x = none

/-- What the program prints about a page. -/
def Page.reply (p : Page) : List Rune := ("TEXT=".toList ++ p.text).map Char.toNat

/-- From `d` rows above the cursor upwards: an empty row if the prompt goes down, what was printed about the last line, the line
itself, and so on; above the first line what stood on the screen `v0` above its cursor, and at its cursor if the prompt goes down. -/
def Dialogue (S : Sign) (C : Cfg) (adv : Rune → Int) (rooms : Int → Prop) (v0 v : Vt) : Int → List Page → Prop
  | d, [] => Raised S v0 v (d - 1 + S.drop)
  | d, p :: ps => (S.down = true → ∀ x, v.cells (v.row - d) x = none) ∧ ∃ rows, Folded adv v.width p.reply rows ∧
      Above adv v (d + rows.length - 1 + S.drop) rows ∧
      (∃ room, rooms room ∧ RowShows S C adv v (v.row - (d + rows.length + S.drop)) room (p.text.map Char.toNat) p.left.length) ∧
      Dialogue S C adv rooms v0 v (d + rows.length + 1 + S.drop) ps

/-- The lines that are remembered of the pages that were entered, the newest page first. -/
def heard (keep : List Char → Bool) (ps : List Page) : List (List Char) := (ps.reverse.map Page.text).filter keep

/-- How the textbook's program (`notebook`) ends, and the page that was open then. -/
def parting (D : Desk) (keep : List Char → Bool) (t : List Char) :
    Nat → List (List Char) → Nat → Option (List Char) → List (List Char) → Ending × Page
  | 0, h, n, clip, _ => (.starved, opening { D with history := h } t n clip)
  | m + 1, h, n, clip, ks =>
    match oneLine { D with history := h } t n clip ks with
    | (.entered l, p, rest) => parting D keep t m (if keep l then h ++ [l] else h) p.left.length p.clip rest
    | (e, p, _) => (e, p)

/-- What stays in the row of a line that is given up, and where the cursor was in it: the line; but if predictions are made,
Ctrl-C may empty the row, and does so unless a key has left an old prediction. -/
def Remains (D : Desk) (ks : List (List Char)) (a : Ending) (p : Page) (l : List Char) (m : Nat) : Prop :=
  (l = p.text ∧ m = p.left.length ∨ D.guessing = true ∧ a = .interrupted ∧ l = [] ∧ m = 0) ∧
  ((D.guessing = false ∨ ∀ k ∈ ks, D.verb k ∉ [.killRight, .killAll, .exchange, .older, .newer]) →
    if D.guessing = true ∧ a = .interrupted then l = [] else l = p.text)

/-- What is printed about the end. -/
def farewellLine (e : Ending) : List Rune := ("ERR=".toList ++ (if e = .interrupted then "^C".toList else "EOF".toList)).map Char.toNat

/-- All the characters that can get into a line are printable. -/
structure Legible (D : Desk) (t : List Char) (clip : Option (List Char)) (ks : List (List Char)) : Prop where
  texts : ∀ u, u = t ∨ u ∈ D.history ∨ clip = some u → ∀ c ∈ u, 0x20 ≤ c.toNat
  typed : ∀ k ∈ ks, ∀ u, D.verb k = .type u → ∀ c ∈ u, 0x20 ≤ c.toNat
  literal : ∀ k ∈ ks, D.verb k ≠ .literally
  guess : D.Within fun c => 0x20 ≤ c.toNat

/-- The states of the program, with what is written from the state before the call on. -/
inductive Midst (E : Env) (keep : Bytes → Bool) : Container → World → St → Prop
  | here {c w s} : Reachable { E with history := c.buffer } w s → Midst E keep c w s
  | next {c w s r s'} : readLine { E with history := c.buffer } w = .ok (s, r) → r.err = .nil →
      Midst E keep (if keep r.text then c.add r.text else c) (s.world.print (replyText r.text)) s' → Midst E keep c w s'

end Readline.Spec
