import Verif.Spec.Textbook
/-!
# A program that reads lines, as in a textbook

Line after line is read with the editor of `Spec/Textbook`; the lines that are to be kept make up the history.  It makes
no use of the model.
-/
namespace Readline.Spec

/-- The keys one after the other: the end, the page then, and the keys that are left. -/
def plays (D : Desk) : Nat → Page → List (List Char) → Ending × Page × List (List Char)
  | 0, p, ks => (.starved, p, ks)
  | _ + 1, p, [] => (.starved, p, [])
  | n + 1, p, k :: ks =>
    match turn D p k ks with
    | .inl (p, ks) => plays D n p ks
    | .inr e => (e, p, ks)

/-- One line: the end, the position of the cursor, the clipboard and the keys that are left. -/
def oneLine (D : Desk) (t : List Char) (n : Nat) (clip : Option (List Char)) (ks : List (List Char)) :
    Ending × Page × List (List Char) :=
  plays D ks.length (opening D t n clip) ks

/-- The program with the history `h`: every line starts with the text `t`, the cursor where it was left, or at the end if
the text is shorter.  It ends with the history and the way in which the last line ended. -/
def notebook (D : Desk) (keep : List Char → Bool) (t : List Char) :
    Nat → List (List Char) → Nat → Option (List Char) → List (List Char) → List (List Char) × Ending
  | 0, h, _, _, _ => (h, .starved)
  | m + 1, h, n, clip, ks =>
    match oneLine { D with history := h } t n clip ks with
    | (.entered l, p, rest) => notebook D keep t m (if keep l then h ++ [l] else h) p.left.length p.clip rest
    | (e, _, _) => (h, e)

end Readline.Spec
