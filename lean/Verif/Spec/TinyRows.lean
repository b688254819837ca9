import Verif.Spec.Reply
import Verif.Spec.Fields
import Verif.Model.Tiny
import Verif.Proof.Vt
/-!
# A shell on the terminal
-/
namespace Readline.Spec

/-- Does the line have a word? -/
def wordy (l : List Char) : Bool := l.any fun c => !decide (White c)

/-- The commands of some lines in this order: the words of each line that has any. -/
inductive Commands : List (List Char) → List (List (List Char)) → Prop
  | nil : Commands [] []
  | skip {l ls cs} : Fields l [] → Commands ls cs → Commands (l :: ls) cs
  | run {l ws ls cs} : Fields l ws → ws ≠ [] → Commands ls cs → Commands (l :: ls) (ws :: cs)

/-- A terminal at the beginning of a row, with nothing below. -/
structure AtRow (v : Vt) : Prop where
  ground : v.mode = .ground
  col : v.col = 0
  inside : v.row < v.height
  clear : Clear v

/-- Commands that write whole characters and leave the terminal at the beginning of a row with nothing below if they find it so. -/
def Mannered (adv : Rune → Int) (Y : System σ) : Prop :=
  ∀ argv x, ∃ b, (Y.exec argv x).2.out = x.2.out ++ [.lit b] ∧ (∃ rs, Readline.Reads b rs) ∧ ∀ v, AtRow v → AtRow (v.run adv b)

/-- Where the shell (examples/example2.go:45-66) calls `ReadLine`: the commands it has run, the history, the files and what the
call finds. -/
inductive Underway (Y : System σ) (E : Env) : Container → σ × World → List (List Bytes) → Container → σ × World → Prop
  | start {c x} : Underway Y E c x [] c x
  | blank {c x s r ran c' x'} : readLine (tinyEnv Y E x.1 c.buffer) x.2 = .ok (s, r) → r.err = .nil → fields r.text = [] →
      Underway Y E c (x.1, s.world) ran c' x' → Underway Y E c x ran c' x'
  | run {c x s r ran c' x'} : readLine (tinyEnv Y E x.1 c.buffer) x.2 = .ok (s, r) → r.err = .nil → fields r.text ≠ [] →
      Underway Y E (c.add r.text) (Y.exec (fields r.text) (x.1, s.world)) ran c' x' → Underway Y E c x (fields r.text :: ran) c' x'

end Readline.Spec
