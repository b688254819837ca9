import Verif.Props.C15
import Verif.Spec.Browse
import Verif.Spec.Own
import Verif.Spec.TakeBack
/-!
# What the exported methods of `Buffer` do

Stated with the units of the line, for programs that are written without knowing the code.
-/
namespace Readline.Spec

/-- Nothing but the line, the cursor, the undo log and the screen has changed. -/
structure Spares (s s' : St) : Prop where
  clip : s'.clip = s.clip
  pending : s'.pending = s.pending
  histPtr : s'.histPtr = s.histPtr
  modHist : s'.modHist = s.modHist
  input : s'.input = s.input
  termWidth : s'.termWidth = s.termWidth

/-- Only the screen, the scroll offset and the prediction have changed. -/
structure Redrawn (s s' : St) : Prop where
  units : s'.units = s.units
  cursor : s'.cursor = s.cursor
  undoes : s'.undoes = s.undoes
  spares : Spares s s'

/-- The screen columns that the units of the line take, one after the other. -/
def columnsOf (C : Cfg) (s : St) : List Int := s.buf.map fun c => c.moji.width C

/-- The elements from `a` up to but not including `b`. -/
def between {α : Type} (l : List α) (a b : Int) : List α := (l.take b.toNat).drop a.toNat

/-- The first key or error is taken out of the input; resizes stay. -/
inductive TakesKey : List Ev → Option Bytes → List Ev → Prop where
  | nothing {rs} : (∀ ev ∈ rs, ∃ w, ev = .resize w) → TakesKey rs none rs
  | key {rs k rest} : (∀ ev ∈ rs, ∃ w, ev = .resize w) → TakesKey (rs ++ .key k :: rest) (some k) (rs ++ rest)
  | error {rs x rest} : (∀ ev ∈ rs, ∃ w, ev = .resize w) → TakesKey (rs ++ .err x :: rest) none (rs ++ rest)

/-- What a call does to the editor and what it gives back. -/
def Does (E : Env) (s s' : St) (reply : Reply) : Api → Prop
  | .insertString pos t =>
    s'.units = s.units.take pos.toNat ++ unitsOf E.cfg t ++ s.units.drop pos.toNat ∧ s'.cursor = s.cursor ∧
      s'.viewStart = s.viewStart ∧ Spares s s' ∧ reply = .num (unitsOf E.cfg t).length
  | .delete pos n =>
    if 0 < n ∧ pos + n ≤ s.units.length then
      s'.units = s.units.take pos.toNat ++ s.units.drop (pos + n).toNat ∧ s'.cursor = s.cursor ∧
        s'.viewStart = s.viewStart ∧ Spares s s' ∧ reply = .num (between (columnsOf E.cfg s) pos (pos + n)).sum
    else s' = s ∧ reply = .num 0
  | .getWidthBetween a b => s' = s ∧ reply = .num (between (columnsOf E.cfg s) a b).sum
  | .subString a b => s' = s ∧ reply = .text (between s.units a b).flatten
  | .currentWordTop => s' = s ∧ ∃ l r a v, At s l r ∧ l = a ++ v ∧ UnitWord E.delimiters a v ∧ reply = .num a.length
  | .currentWord => s' = s ∧ ∃ l r a v, At s l r ∧ l = a ++ v ∧ UnitWord E.delimiters a v ∧
      reply = .word v.flatten a.length
  | .getKey => ∃ k, TakesKey s.input k s'.input ∧ Redrawn s { s' with input := s.input } ∧ reply = .key k
  | .insertAndRepaint t => ∃ l r, At s l r ∧ At s' (l ++ unitsOf E.cfg t) r ∧ Spares s s' ∧ reply = .unit
  | .replaceAndRepaint pos t =>
    s'.units = s.units.take pos.toNat ++ unitsOf E.cfg t ++ s.units.drop (max pos s.cursor).toNat ∧
      s'.cursor = pos + (unitsOf E.cfg t).length ∧ Spares s s' ∧ reply = .unit
  | .resetViewStart | .gotoHead | .drawFromHead | .repaintAfterPrompt | .repaintAll | .repaintLastLine | .write _ =>
    Redrawn s s' ∧ reply = .unit
  | .setCursor n => s' = { s with cursor := n } ∧ reply = .unit
  | .setViewStart n => s' = { s with viewStart := n } ∧ reply = .unit
  | .setBuffer cs => s' = { s with buf := cs } ∧ reply = .unit
  | .call c => ∃ rc, Cmd.call E c s = .ok (s', rc) ∧ reply = .result rc

/-- Positions and cursor as the call needs them. -/
def Named (s : St) : Api → Prop
  | .insertString pos _ => 0 ≤ pos ∧ pos ≤ s.units.length
  | .delete pos n => 0 < n ∧ pos + n ≤ s.units.length → 0 ≤ pos
  | .getWidthBetween a b | .subString a b => 0 ≤ a ∧ a ≤ b ∧ b ≤ s.units.length
  | .currentWordTop | .currentWord => 0 ≤ s.cursor ∧ s.cursor ≤ s.units.length
  | _ => True

/-- The calls that draw, and commands, may panic for other reasons (C01, C59). -/
def paints : Api → Bool
  | .insertAndRepaint _ | .drawFromHead | .replaceAndRepaint .. | .repaintAfterPrompt | .repaintAll
  | .repaintLastLine | .call _ => true
  | _ => false

/-- A run of an own command, told from what its calls do. -/
inductive Tells (E : Env) : Own → St → St → Result → Prop where
  | ret {r s} : Tells E (.ret r) s s r
  | look {next s s' r} : Tells E (next s) s s' r → Tells E (.look next) s s' r
  | act {a next s s1 s' reply r} : Does E s s1 reply a → Tells E (next reply) s1 s' r → Tells E (.act a next) s s' r

end Readline.Spec
