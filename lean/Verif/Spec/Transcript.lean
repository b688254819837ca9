import Verif.Spec.PageOnScreen
import Verif.Spec.Notebook
import Verif.Model.Shell
import Verif.Proof.Textbook6
/-!
# What a program that reads lines leaves on the terminal

Rows are counted from the cursor upwards.  The rows above the first one are those that have scrolled out of the screen; a
terminal that keeps them shows them when the user scrolls back.
-/
namespace Readline.Spec

/-- The row `y` begins with the prompt and shows a line, as much of it around the place of the cursor as there was room for, and
nothing else. -/
def RowShows (S : Sign) (C : Cfg) (adv : Rune → Int) (v : Vt) (y room : Int) (text : List Rune) (cursor : Nat) : Prop :=
  S.At C adv v y ∧
  ∃ away left right rest, text = away ++ left ++ right ++ rest ∧ (away ++ left).length = cursor ∧
    textColumns C (left ++ right) < room ∧
    (∀ k r tail, (∀ r ∈ text, plainColumns C r = k) → rest = r :: tail →
      room ≤ textColumns C (left ++ right) + plainColumns C r) ∧
    ∀ x, S.columns C ≤ x → v.cells y x = picture C adv (left ++ right) (S.columns C) x

/-- The rows a prompt goes down. -/
def Sign.drop (S : Sign) : Int := if S.down then 1 else 0

/-- The lines that were entered, the last one `d` rows above the cursor, the others above it, with a row in between if the prompt goes down.
`rooms` are the numbers of columns there were for a line. -/
def Transcript (S : Sign) (C : Cfg) (adv : Rune → Int) (rooms : Int → Prop) (v : Vt) : Int → List Page → Prop
  | _, [] => True
  | d, p :: ps => (∃ room, rooms room ∧ RowShows S C adv v (v.row - d) room (p.text.map Char.toNat) p.left.length) ∧
      Transcript S C adv rooms v (d + (1 + S.drop)) ps

/-- What stood at the cursor and above it before stands `d` rows higher now. -/
def Lifted (v v' : Vt) (d : Int) : Prop := ∀ k, 0 ≤ k → v'.cells (v'.row - (d + k)) = v.cells (v.row - k)

/-- The same for what stood above the cursor, and for the row of the cursor too if the prompt goes down. -/
def Raised (S : Sign) (v v' : Vt) (d : Int) : Prop :=
  ∀ k, 0 ≤ k → (S.down = true ∨ 1 ≤ k) → v'.cells (v'.row - (d + k)) = v.cells (v.row - k)

/-- The pages of the textbook's program (`notebook`) at which a line was entered, the last one first; `ps` are those before. -/
def leaves (D : Desk) (keep : List Char → Bool) (t : List Char) :
    Nat → List Page → List (List Char) → Nat → Option (List Char) → List (List Char) → List Page
  | 0, ps, _, _, _, _ => ps
  | m + 1, ps, h, n, clip, ks =>
    match oneLine { D with history := h } t n clip ks with
    | (.entered l, p, rest) => leaves D keep t m (p :: ps) (if keep l then h ++ [l] else h) p.left.length p.clip rest
    | _ => ps

/-- The textbook's program has come to the page `p`, with the keys `r` left, after the pages `ps` were entered. -/
inductive Opened (D : Desk) (keep : List Char → Bool) (t : List Char) :
    List Page → List (List Char) → Nat → Option (List Char) → List (List Char) → List Page → Page → List (List Char) → Prop
  | here {ps h n clip ks p r} : Turned { D with history := h } (opening { D with history := h } t n clip) ks p r →
      Opened D keep t ps h n clip ks ps p r
  | next {ps h n clip ks l q rest ps' p r} : oneLine { D with history := h } t n clip ks = (.entered l, q, rest) →
      Opened D keep t (q :: ps) (if keep l then h ++ [l] else h) q.left.length q.clip rest ps' p r →
      Opened D keep t ps h n clip ks ps' p r

/-- The states of a program that reads lines (example3.go:34-43), with what is written from the state before the call on. -/
inductive Amid (E : Env) (keep : Bytes → Bool) : Container → World → St → Prop
  | here {c w s} : Reachable { E with history := c.buffer } w s → Amid E keep c w s
  | next {c w s r s'} : readLine { E with history := c.buffer } w = .ok (s, r) → r.err = .nil →
      Amid E keep (if keep r.text then c.add r.text else c) s.world s' → Amid E keep c w s'

end Readline.Spec
