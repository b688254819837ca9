import Verif.Model.Completion
import Verif.Spec.Strings
/-!
# What completion does with the text before the cursor

A function of the units before the cursor alone: which text replaces the units from which position
on, or what is shown instead.
-/
namespace Readline.Spec

/-- The text `t` with a quotation mark in front, and behind if `close`, if `need`. -/
def quoted (K : Completer) (need close : Bool) (t : Bytes) : Bytes :=
  match K.enclosures with
  | [] => t
  | q :: _ => if need then encodeRune q.toNat ++ t ++ (if close then encodeRune q.toNat else []) else t

/-- Does the text contain a blank or a delimiter? -/
def needsQuote (K : Completer) (t : Bytes) : Bool :=
  hasOneOf t ([0x20, 0x09, 0x0D, 0x0A, 0x0B, 0x0C] ++ K.delimiters)

/-- Does the name begin with the field, ignoring case? -/
def beginsWith (U : Uni) (field name : Bytes) : Bool :=
  decide (field.length ≤ name.length) && sameIgnoringCase U field (name.take field.length)

/-- The names to show for the candidates: the base names, or the full names if there are none. -/
def baseNames (K : Completer) (fields : List Bytes) : List Bytes :=
  if (K.list fields).2 = [] then (K.list fields).1 else (K.list fields).2

/-- What completion does. -/
inductive Outcome where
  /-- it panics -/
  | crash
  | nothing
  /-- it rings the bell; the names are shown by CmdCompletionOrList -/
  | bell (shown : List Bytes)
  /-- the units from `pos` up to the cursor are replaced by the text -/
  | insert (pos : Nat) (t : Bytes)
deriving DecidableEq

/-- What completion does when the fields before the cursor are `fields` and the last of them starts
at unit `start`. -/
def completionFor (U : Uni) (K : Completer) (post : Bytes) (fields : List Bytes) (start : Nat) : Outcome :=
  match fields.getLast? with
  | none => .nothing
  | some field =>
    if ((K.list fields).1.drop (baseNames K fields).length).any (beginsWith U field) then .crash
    else
      match (K.list fields).1.filter (beginsWith U field) with
      | [] => .nothing
      | [x] =>
        if sameIgnoringCase U field x then .bell []
        else .insert start (quoted K (decide (K.delimiters ≠ []) && needsQuote K x) true x ++ post)
      | cands =>
        match commonPrefix U cands with
        | none => .crash
        | some p =>
          if sameIgnoringCase U field p then
            .bell ((((K.list fields).1.zip (baseNames K fields)).filter (fun q => beginsWith U field q.1)).map Prod.snd)
          else .insert start (quoted K (cands.any (needsQuote K)) false p)

/-- What completion does when the units before the cursor are `texts`. -/
def completionOf (U : Uni) (K : Completer) (post : Bytes) (texts : List Bytes) : Outcome :=
  completionFor U K post (splitLoop K.enclosures K.delimiters texts 0 none [] 0).1
    (splitLoop K.enclosures K.delimiters texts 0 none [] 0).2

end Readline.Spec
