import Verif.Model.Buffer
/-!
# What Undo has to bring back

A list of earlier lines, the next one to be restored first, and how a command may change it.
-/
namespace Readline.Spec

/-- Commands that only look or move. -/
def movesOnly : Cmd → Bool
  | .acceptLine | .beginningOfLine | .backwardChar | .endOfLine | .backwardWord | .forwardWord
  | .clearScreen | .repaintOnNewline => true
  | _ => false

/-- The command inserts typed text. -/
def types : Cmd → Prop
  | .quotedInsert | .selfInsert _ => True
  | _ => False

/-- `Snap c l stk l' stk'`: command `c` changed the line from `l` to `l'` and the earlier lines
that Undo will bring back from `stk` to `stk'`. -/
inductive Snap {α : Type} (c : Cmd) (l : List α) (stk : List (List α)) (l' : List α) :
    List (List α) → Prop where
  /-- the line is the same and there is nothing to undo -/
  | keep : l' = l → (c = .undo → stk = []) → Snap c l stk l' stk
  /-- the old line is remembered -/
  | push : movesOnly c = false → c ≠ .undo → Snap c l stk l' (l :: stk)
  /-- browsing the history empties the line first, which is undone separately -/
  | pushEmpty : (c = .previousHistory ∨ c = .nextHistory) → Snap c l stk l' ([] :: l :: stk)
  /-- typing a code point that attaches to the unit before it takes that unit away first,
  which is undone separately -/
  | pushJoin {i : Nat} : types c → Snap c l stk l' (l.eraseIdx i :: l :: stk)
  /-- text inserted where text was just deleted is undone together with the deletion -/
  | merge : (c = .yank ∨ c = .yankWithQuote ∨ c = .forwardChar) → stk ≠ [] →
      (∃ p t, l' = l.take p ++ t ++ l.drop p) → Snap c l stk l' stk
  /-- Undo brings the last remembered line back -/
  | undo {stk' : List (List α)} : c = .undo → stk = l' :: stk' → Snap c l stk l' stk'
  /-- Ctrl-C ends the editing -/
  | clear : c = .interrupt → Snap c l stk l' []

theorem map_eraseIdx (f : α → β) (l : List α) (i : Nat) :
    (l.eraseIdx i).map f = (l.map f).eraseIdx i := by
  induction l generalizing i with
  | nil => simp
  | cons a l ih => cases i <;> simp [ih]

theorem Snap.map {α β : Type} {f : α → β} {c : Cmd} {l l' : List α} {stk stk' : List (List α)}
    (h : Snap c l stk l' stk') :
    Snap c (l.map f) (stk.map (·.map f)) (l'.map f) (stk'.map (·.map f)) := by
  cases h with
  | keep h1 h2 => exact .keep (by rw [h1]) (fun h => by rw [h2 h]; rfl)
  | push h1 h2 => exact .push h1 h2
  | pushEmpty h1 => exact .pushEmpty h1
  | pushJoin h1 =>
    simp only [List.map_cons, map_eraseIdx]
    exact .pushJoin h1
  | merge h1 h2 h3 =>
    obtain ⟨p, t, h3⟩ := h3
    refine .merge h1 (by simpa using h2) ⟨p, t.map f, ?_⟩
    rw [h3]; simp
  | undo h1 h2 => exact .undo h1 (by rw [h2]; rfl)
  | clear h1 => exact .clear h1

/-- The oldest line stays the oldest. -/
theorem Snap.last {α : Type} {c : Cmd} {l l' : List α} {stk stk' : List (List α)}
    (h : Snap c l stk l' stk') (hc : c ≠ .interrupt) (d : List α) :
    (l' :: stk').getLastD d = (l :: stk).getLastD d := by
  cases h with
  | keep h1 _ => rw [h1]
  | push _ _ => simp [List.getLastD_cons]
  | pushEmpty _ => simp [List.getLastD_cons]
  | pushJoin _ => simp [List.getLastD_cons]
  | merge _ h2 _ =>
    cases stk with
    | nil => exact absurd rfl h2
    | cons x stk => simp [List.getLastD_cons]
  | undo _ h2 => rw [h2]; simp [List.getLastD_cons]
  | clear h1 => exact absurd h1 hc

end Readline.Spec
