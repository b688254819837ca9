import Verif.Spec.Word
/-!
# A line editor as in a textbook

A line of characters, two halves around the cursor, and what every command does to them.  No bytes, no units, no
columns, no output; Undo goes back to a line that was kept.  It makes no use of the model.
-/
namespace Readline.Spec

/-- What a key stands for. -/
inductive Verb where
  | enter | interrupt | deleteOrClose
  | home | goEnd | left | right | wordLeft | wordRight
  | backspace | delete | killRight | killLeft | killAll | killWord
  | type (t : List Char) | literally | paste | pasteQuoted
  | exchange | undo | older | newer | search | redraw
deriving DecidableEq

/-- The newest line of the history that begins with the text, from there on. -/
def newestRest (history : List (List Char)) (t : List Char) : List Char :=
  match history.reverse.find? (fun h => t.isPrefixOf h) with
  | some h => h.drop t.length
  | none => []

/-- What the editor is given. -/
structure Desk where
  history : List (List Char)
  /-- going back from the oldest line leads to the line being typed -/
  cycling : Bool
  /-- are predictions offered -/
  guessing : Bool
  /-- which, for the history and the line -/
  foresee : List (List Char) → List Char → List Char := newestRest
  /-- quotation marks -/
  marks : List Char
  upper : List Char → List Char
  verb : List Char → Verb

/-- The characters that are foreseen are those of the line, of the history, or certain others. -/
def Desk.Within (D : Desk) (P : Char → Prop) : Prop :=
  ∀ hist t, ∀ c ∈ D.foresee hist t, c ∈ t ∨ (∃ h ∈ hist, c ∈ h) ∨ P c

/-- A change that can be taken back: the line before it, where characters were taken away and put, and which. -/
structure Change where
  before : List Char
  place : Nat
  cut : List Char
  put : Nat
  /-- an exchange at the end of the line, whose Undo crashes -/
  bad : Bool := false

structure Page where
  left : List Char
  right : List Char
  changes : List Change := []
  clip : Option (List Char)
  /-- position in the history, its length for the line being typed -/
  entry : Nat
  /-- what was left at the positions -/
  drafts : Nat → Option (List Char) := fun _ => none

/-- How a call ends. -/
inductive Ending where
  | entered (t : List Char)
  | interrupted
  | closed
  /-- the keys do not suffice -/
  | starved
  | crashed
deriving DecidableEq

/-- A blank; tabs do not count. -/
def Gap (c : Char) : Bool := decide (White c) && decide (c ≠ '\t')

/-- Without the characters at the end that fulfil `f`. -/
def dropEnd (f : Char → Bool) (t : List Char) : List Char := (t.reverse.dropWhile f).reverse

/-- Where the word at the end of the text starts: behind the last blank outside quotations. -/
def wordStart (marks : List Char) : List Char → Nat → Option Nat → Option Char → Option Nat
  | [], _, start, _ => start
  | c :: cs, i, start, q =>
    if c = '\t' then wordStart marks cs (i + 1) start q
    else
      let q' := match q with
        | none => if c ∈ marks then some c else none
        | some m => if c = m then none else some m
      if White c ∧ q' = none then wordStart marks cs (i + 1) none q'
      else wordStart marks cs (i + 1) (start.or (some i)) q'

namespace Page

def text (p : Page) : List Char := p.left ++ p.right

def _root_.Readline.Spec.Desk.guess (D : Desk) (t : List Char) : List Char := D.foresee D.history t

/-- The prediction for the present line. -/
def offer (D : Desk) (p : Page) : List Char := if D.guessing = false ∨ p.text = [] then [] else D.guess p.text

/-- Put the text at the cursor. -/
def write (t : List Char) (p : Page) : Page :=
  { p with
    left := p.left ++ t
    changes := { before := p.text, place := p.left.length, cut := [], put := t.length } :: p.changes }

/-- The same, taken back together with a removal at the same place right before. -/
def paste (t : List Char) (p : Page) : Page :=
  match p.changes with
  | c :: rest =>
    if c.place = p.left.length ∧ (c.put = 0 ∨ t = []) then
      { p with left := p.left ++ t, changes := { c with put := c.put + t.length } :: rest }
    else p.write t
  | [] => p.write t

/-- Take away the last `n` characters on the left. -/
def cutLeft (n : Nat) (p : Page) : Page :=
  if n = 0 then p
  else
    { p with
      left := p.left.take (p.left.length - n)
      changes := { before := p.text, place := p.left.length - n, cut := p.left.drop (p.left.length - n), put := 0 } :: p.changes }

def backspace (p : Page) : Page := if p.left = [] then p else p.cutLeft 1

/-- Take away the character on the right. -/
def delete (p : Page) : Page :=
  match p.right with
  | [] => p
  | c :: r =>
    { p with
      right := r
      changes := { before := p.text, place := p.left.length, cut := [c], put := 0 } :: p.changes }

def killRight (p : Page) : Page :=
  { p with
    right := []
    clip := some p.right
    changes := { before := p.text, place := p.left.length, cut := p.right, put := 0 } :: p.changes }

def killAll (p : Page) : Page :=
  { p with
    left := [], right := []
    changes := { before := p.text, place := 0, cut := p.text, put := 0 } :: p.changes }

def killLeft (p : Page) : Page := cutLeft p.left.length { p with clip := some p.left }

/-- Take away the word on the left and the blanks behind it. -/
def killWord (D : Desk) (p : Page) : Page :=
  let words := dropEnd Gap p.left
  let start := (wordStart D.marks words 0 none none).getD words.length
  cutLeft (p.left.length - start) { p with clip := some (p.left.drop start) }

/-- Exchange the characters on both sides of the cursor, at the end of the line the last two. -/
def exchange (p : Page) : Page :=
  match p.left.reverse, p.right with
  | a :: b :: l, [] =>
    { p with
      left := l.reverse ++ [a, b]
      changes := { before := p.text, place := p.left.length, cut := [b, a], put := 2, bad := true } :: p.changes }
  | a :: l, b :: r =>
    { p with
      left := l.reverse ++ [b, a]
      right := r
      changes := { before := p.text, place := p.left.length - 1, cut := [a, b], put := 2 } :: p.changes }
  | _, _ => p

/-- The last change is taken back. -/
def undo (p : Page) : Option Page :=
  match p.changes with
  | [] => some p
  | c :: rest =>
    if c.bad then none
    else
      some { p with
        left := c.before.take (c.place + c.cut.length)
        right := c.before.drop (c.place + c.cut.length)
        changes := rest }

/-- Go to the position `to` of the history; the line is kept at the position `here`, unless it is the one that is
there already. -/
def browse (D : Desk) (here to : Nat) (p : Page) : Page :=
  let drafts := if D.history[here]? = some p.text then p.drafts
    else fun i => if i = here then some p.text else p.drafts i
  let t := (drafts to).getD (D.history.getD to [])
  let p := { p with entry := to, drafts := drafts }.killAll
  if t = [] then p else p.write t

def older (D : Desk) (p : Page) : Page :=
  if D.history = [] then p
  else if p.entry = 0 then if D.cycling then p.browse D (D.history.length + 1) D.history.length else p
  else p.browse D p.entry (p.entry - 1)

def newer (D : Desk) (p : Page) : Page :=
  if D.history = [] ∨ D.history.length ≤ p.entry then p else p.browse D p.entry (p.entry + 1)

def wordLeft (p : Page) : Page :=
  let l := dropEnd (fun c => !Gap c) (dropEnd Gap p.left)
  { p with left := l, right := p.left.drop l.length ++ p.right }

def wordRight (p : Page) : Page :=
  let r := (p.right.dropWhile (fun c => !Gap c)).dropWhile Gap
  { p with left := p.left ++ p.right.take (p.right.length - r.length), right := r }

end Page

/-- What a key puts into the line: an escape character in front of a single ASCII character is dropped. -/
def keyText : List Char → List Char
  | ['\x1b', c] => if c.toNat < 128 then [c] else ['\x1b', c]
  | t => t

/-- A text as it is pasted: without line ends and NUL at its end. -/
def pasted (t : List Char) : List Char := dropEnd (fun c => c = '\r' ∨ c = '\n' ∨ c = '\x00') t

/-- Line ends get quotation marks around them. -/
def requote : List Char → List Char
  | '\r' :: '\n' :: t => ['"', '\r', '\n', '"'] ++ requote t
  | c :: t => c :: requote t
  | [] => []

/-- A text with blanks in quotation marks, unless it has one in front. -/
def quotedText (t : List Char) : List Char :=
  if ' ' ∈ t ∧ t.head? ≠ some '"' then
    requote (['"'] ++ t.flatMap (fun c => if c = '"' then ['"', '"'] else [c]) ++ ['"'])
  else t

/-! ## Incremental search -/

/-- The text sought, the line found, and its position. -/
structure Quest where
  sought : List Char := []
  found : List Char := []
  pos : Nat

/-- The line contains the text, upper and lower case aside. -/
def Desk.has (D : Desk) (t line : List Char) : Bool :=
  (List.range ((D.upper line).length + 1)).any fun i => (D.upper t).isPrefixOf ((D.upper line).drop i)

/-- Go to the first of the positions that fits. -/
def Quest.first (D : Desk) (q : Quest) (is : List Nat) (fits : List Char → Bool) : Option Quest :=
  (is.find? fun i => fits (D.history.getD i [])).map fun i => { q with found := D.history.getD i [], pos := i }

/-- The newest line that contains the text. -/
def Quest.newest (D : Desk) (q : Quest) : Quest :=
  (q.first D (List.range D.history.length).reverse (D.has q.sought)).getD { q with found := [] }

/-- Another line that contains it. -/
def Quest.another (D : Desk) (q : Quest) (is : List Nat) : Quest :=
  (q.first D is fun line => D.has q.sought line && decide (q.found ≠ line)).getD q

/-- A key during a search; `none`: the search is over. -/
def Quest.press (D : Desk) (q : Quest) (k : List Char) : Option Quest :=
  if k = ['\x08'] ∨ k = ['\x7f'] then some (Quest.newest D { q with sought := q.sought.dropLast })
  else if k = ['\r'] ∨ k = ['\x03'] ∨ k = ['\x07'] ∨ k = ['\x1b'] then none
  else if k = ['\x12'] then
    some (q.another D ((List.range q.pos).reverse ++ (List.range' (q.pos + 1) (D.history.length - 1 - q.pos)).reverse))
  else if k = ['\x13'] then some (q.another D (List.range' (q.pos + 1) (D.history.length - 1 - q.pos)))
  else
    match k with
    | [] => some q
    | c :: _ =>
      if c.toNat < 0x20 ∨ (0x7F ≤ c.toNat ∧ c.toNat ≤ 0x9F) then some q
      else some (Quest.newest D { q with sought := q.sought ++ [c] })

/-- A search: the line to be taken, if any, and the keys left. -/
def Quest.run (D : Desk) : Quest → List (List Char) → Option (List Char) × List (List Char)
  | _, [] => (none, [])
  | q, k :: ks =>
    match q.press D k with
    | some q => Quest.run D q ks
    | none => (if k = ['\r'] then some q.found else none, ks)

/-! ## The session -/

/-- One key, with the keys after it: the page and the keys that are left, or the end. -/
def turn (D : Desk) (p : Page) (k : List Char) (ks : List (List Char)) : (Page × List (List Char)) ⊕ Ending :=
  match D.verb k with
  | .enter => .inr (.entered p.text)
  | .interrupt => .inr .interrupted
  | .deleteOrClose => if p.text = [] then .inr .closed else .inl (p.delete, ks)
  | .home => .inl ({ p with left := [], right := p.text }, ks)
  | .goEnd => .inl ({ p with left := p.text, right := [] }, ks)
  | .left =>
    .inl (if p.left = [] then p else { p with left := p.left.dropLast, right := p.left.drop (p.left.length - 1) ++ p.right }, ks)
  | .right =>
    .inl (match p.right with
      | c :: r => { p with left := p.left ++ [c], right := r }
      | [] => if p.offer D = [] then p else p.paste (p.offer D), ks)
  | .wordLeft => .inl (p.wordLeft, ks)
  | .wordRight => .inl (p.wordRight, ks)
  | .backspace => .inl (p.backspace, ks)
  | .delete => .inl (p.delete, ks)
  | .killRight => .inl (p.killRight, ks)
  | .killLeft => .inl (p.killLeft, ks)
  | .killAll => .inl (p.killAll, ks)
  | .killWord => .inl (p.killWord D, ks)
  | .type t => .inl (p.write (keyText t), ks)
  | .literally =>
    match ks with
    | [] => .inl (p, [])
    | t :: ks => .inl (p.write (keyText t), ks)
  | .paste => .inl (p.clip.elim p fun t => p.paste (pasted t), ks)
  | .pasteQuoted => .inl (p.clip.elim p fun t => p.paste (quotedText t), ks)
  | .exchange => .inl (p.exchange, ks)
  | .undo => p.undo.elim (.inr .crashed) fun p => .inl (p, ks)
  | .older => .inl (p.older D, ks)
  | .newer => .inl (p.newer D, ks)
  | .search =>
    match Quest.run D { pos := D.history.length - 1 } ks with
    | (some t, ks) => .inl (p.killAll.paste t, ks)
    | (none, ks) => .inl (p, ks)
  | .redraw => .inl (p, ks)

/-- The keys one after the other; a turn takes at least one. -/
def turns (D : Desk) : Nat → Page → List (List Char) → Ending
  | 0, _, _ => .starved
  | _ + 1, _, [] => .starved
  | n + 1, p, k :: ks =>
    match turn D p k ks with
    | .inl (p, ks) => turns D n p ks
    | .inr e => e

/-- The page at the start: the given text, with the cursor behind its first `n` characters. -/
def opening (D : Desk) (t : List Char) (n : Nat) (clip : Option (List Char)) : Page :=
  { left := t.take n, right := t.drop n
    changes := [{ before := [], place := 0, cut := [], put := t.length }]
    clip := clip
    entry := D.history.length }

/-- The textbook's `ReadLine`. -/
def textbook (D : Desk) (t : List Char) (n : Nat) (clip : Option (List Char)) (keys : List (List Char)) : Ending :=
  turns D keys.length (opening D t n clip) keys

end Readline.Spec
