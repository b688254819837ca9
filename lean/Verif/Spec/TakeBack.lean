import Verif.Spec.Calm
/-!
# What one Undo has to take back
-/
namespace Readline.Spec

/-- The next key of the input; resizes do not count. -/
def nextKey : List Ev → Option Bytes
  | .resize _ :: rest => nextKey rest
  | .key k :: _ => some k
  | _ => none

/-- The text a command types. -/
def putsText (c : Cmd) (input : List Ev) : Option Bytes :=
  match c with
  | .selfInsert k => some k
  | .quotedInsert => nextKey input
  | _ => none

/-- Commands that change the line in one place. -/
def oneChange : Cmd → Bool
  | .backwardDeleteChar | .deleteChar | .deleteOrAbort | .killLine | .killWholeLine | .unixWordRubout
  | .unixLineDiscard | .swapChar | .isearchBackward | .selfInsert _ | .quotedInsert
  | .completion _ => true
  | _ => false

/-- Commands that put a text at the cursor. -/
def pastes : Cmd → Bool
  | .yank | .yankWithQuote | .forwardChar => true
  | _ => false

/-- Where the cursor is after an Undo: behind what was brought back.  If this was right of the cursor
the cursor is not where it was before the command. -/
def undoCursor (c : Cmd) (cursor len : Int) : Int :=
  match c with
  | .deleteChar | .deleteOrAbort | .swapChar => cursor + 1
  | .killLine | .killWholeLine | .isearchBackward => len
  | _ => cursor

/-- The last change that can be undone was a removal at the cursor. -/
def JustRemoved (s : St) : Prop := ∃ u us, s.undoes = u :: us ∧ u.pos = s.cursor ∧ u.del = 0

/-- Nothing changed. -/
def Untouched (s t : St) : Prop := t.units = s.units ∧ t.cursor = s.cursor ∧ t.undoes = s.undoes

/-- `t` is `s` but for the cursor. -/
def Restored (c : Cmd) (s t : St) : Prop :=
  t.units = s.units ∧ t.undoes = s.undoes ∧ t.pending = s.pending ∧
    t.cursor = undoCursor c s.cursor s.len

end Readline.Spec
