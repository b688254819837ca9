import Verif.Spec.Completion
import Verif.Props.C35
/-!
# What the tab key does with file names

In terms of the directory listings and the word before the cursor.
-/
namespace Readline.Spec

/-- How an entry of the directory `dir` is written: directories with a slash. -/
def written (dir : Bytes) (e : Bytes × Bool) : Bytes := dir ++ e.1 ++ (if e.2 then [0x2F] else [])

/-- An entry with the directory in front, for the line, and without, for the list. -/
def fileEntry (dir : Bytes) (e : Bytes × Bool) : Bytes × Bytes := (written dir e, written [] e)

/-- The entries but `.` and `..`. -/
def proper (entries : List (Bytes × Bool)) : List (Bytes × Bool) :=
  entries.filter fun e => decide (e.1 ≠ [0x2E] ∧ e.1 ≠ [0x2E, 0x2E])

/-- The directory the word is in. -/
def dirOf (w : Bytes) : Bytes := if dirPart w = [] then [0x2E] else dirPart w

/-- The candidates for a word: the entries of its directory that begin like it; if that is one
directory only, this directory and what is in it; `none`: the search does not end. -/
def candidates (U : Uni) (rd : ReadDir) (w : Bytes) : Option (List (Bytes × Bytes)) :=
  match rd (dirOf w) with
  | none => some []
  | some entries =>
    match matching U (basePart w) entries with
    | [(name, true)] =>
      match rd (dirPart w ++ name ++ [0x2F]) with
      | none => some [fileEntry (dirPart w) (name, true)]
      | some sub =>
        if proper sub = [] then none
        else some (fileEntry (dirPart w) (name, true) :: (proper sub).map (fileEntry (dirPart w ++ name ++ [0x2F])))
    | ms => some (ms.map (fileEntry (dirPart w)))

/-- The marks of `completion.File`. -/
def fileMarks : Completer where
  delimiters := "&|><;".toList.map fun c => UInt8.ofNat c.toNat
  enclosures := "\"'".toList.map fun c => UInt8.ofNat c.toNat
  list := fun _ => ([], [])

/-- What is done for the word `w` that starts at unit `start`. -/
def tabOutcome (U : Uni) (post w : Bytes) (start : Nat) (cands : List (Bytes × Bytes)) : Outcome :=
  match cands with
  | [] => .nothing
  | [x] =>
    if sameIgnoringCase U w x.1 then .bell []
    else .insert start (quoted fileMarks (needsQuote fileMarks x.1) true x.1 ++ post)
  | _ =>
    match commonPrefix U (cands.map Prod.fst) with
    | none => .crash
    | some p =>
      if sameIgnoringCase U w p then .bell (cands.map Prod.snd)
      else .insert start (quoted fileMarks (cands.any fun x => needsQuote fileMarks x.1) false p)

end Readline.Spec
