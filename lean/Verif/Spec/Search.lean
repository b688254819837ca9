import Verif.Spec.Line
import Verif.Model.ReadLine
/-!
# What incremental search should do

A search is a text typed so far, the line shown (empty at first) and a position in the history.
-/
namespace Readline.Spec

/-- The keys among the events. -/
def keysIn : List Ev → List Bytes
  | [] => []
  | .key k :: evs => k :: keysIn evs
  | .resize _ :: evs => keysIn evs
  | .err _ :: evs => keysIn evs

/-- The resizes among the events. -/
def resizesIn : List Ev → List Ev
  | [] => []
  | .resize w :: evs => .resize w :: resizesIn evs
  | .key _ :: evs => resizesIn evs
  | .err _ :: evs => resizesIn evs

/-- No read error among the events. -/
def NoErr (evs : List Ev) : Prop := ∀ x, .err x ∉ evs

/-- The entry contains the text, ignoring case (`toUpper` is the upper-case mapping). -/
def occurs (toUpper : Bytes → Bytes) (text line : Bytes) : Bool :=
  (List.range ((toUpper line).length + 1)).any fun i =>
    (toUpper text).isPrefixOf ((toUpper line).drop i)

structure Hunt where
  text : List Rune := []
  shown : Bytes := []
  pos : Nat
deriving DecidableEq

/-- Show the first of the given entries that fits. -/
def Hunt.first (E : Env) (h : Hunt) (is : List Nat) (fits : Bytes → Bool) : Option Hunt :=
  (is.find? fun i => fits (E.history.getD i [])).map fun i =>
    { h with shown := E.history.getD i [], pos := i }

/-- Show the newest entry that contains the text; nothing if there is none. -/
def Hunt.newest (E : Env) (h : Hunt) : Hunt :=
  (h.first E (List.range E.history.length).reverse
    (occurs E.toUpper (encodeRunes h.text))).getD { h with shown := [] }

/-- Another entry that contains the text. -/
def Hunt.other (E : Env) (h : Hunt) (is : List Nat) : Hunt :=
  (h.first E is fun line =>
    occurs E.toUpper (encodeRunes h.text) line && decide (h.shown ≠ line)).getD h

/-- From the position to older entries, then from the newest one back to the position. -/
def olderThan (n p : Nat) : List Nat :=
  (List.range p).reverse ++ (List.range' (p + 1) (n - 1 - p)).reverse

/-- From the position to newer entries. -/
def newerThan (n p : Nat) : List Nat := List.range' (p + 1) (n - 1 - p)

/-- C0, DEL and C1. -/
def isCtl (r : Rune) : Prop := r ≤ 0x1F ∨ (0x7F ≤ r ∧ r ≤ 0x9F)

instance (r : Rune) : Decidable (isCtl r) := by unfold isCtl; infer_instance

/-- One key of a search. -/
def Hunt.key (E : Env) (h : Hunt) (k : Bytes) : Hunt :=
  if k = b "\x08" ∨ k = b "\x7f" then Hunt.newest E { h with text := h.text.dropLast }
  else if k = b "\x12" then h.other E (olderThan E.history.length h.pos)
  else if k = b "\x13" then h.other E (newerThan E.history.length h.pos)
  else if isCtl (decodeRune k).1 then h
  else Hunt.newest E { h with text := h.text ++ [(decodeRune k).1] }

/-- The keys of a search. -/
def hunt (E : Env) (ks : List Bytes) : Hunt :=
  ks.foldl (Hunt.key E) { pos := E.history.length - 1 }

/-- Enter takes the line shown. -/
def takes (k : Bytes) : Prop := k = b "\x0d"
/-- Ctrl-C, Ctrl-G and Escape give up. -/
def givesUp (k : Bytes) : Prop := k = b "\x03" ∨ k = b "\x07" ∨ k = b "\x1b"

/-- The keys stay inside the search. -/
def Inside (ks : List Bytes) : Prop := ∀ k ∈ ks, ¬ takes k ∧ ¬ givesUp k

end Readline.Spec
