import Verif.Model.ReadLine
import Verif.Spec.Editor
import Verif.Spec.Text
/-!
# Editors that only look different

What it means for two states, two editors and two outcomes to differ at most in colours and in
output.
-/
namespace Readline

/-- The characters of two lists of cells are the same. -/
def SameMojis (a c : List Cell) : Prop := c.map (·.moji) = a.map (·.moji)

/-- What of the output is looked at. -/
abbrev Seeing := Tok → Option Tok

/-- Two states that differ at most in colours and in output that is not looked at. -/
def Twin (vis : Seeing) (s t : St) : Prop :=
  SameMojis s.buf t.buf ∧ t = { s with buf := t.buf, out := t.out } ∧
    t.out.filterMap vis = s.out.filterMap vis

/-- Two editors that differ at most in what they write: `F.logic = E.logic`, the prompts are
equally wide, and what is looked at is the same. -/
structure Dressed (vis : Seeing) (E F : Env) : Prop where
  logic : F.logic = E.logic
  prompt : F.prompt.isNone = E.prompt.isNone
  width : ∀ p q, E.prompt = some p → F.prompt = some q → ∀ n,
    (mojiWidthAndCount F.cfg (cutEscapeSequenceAndOldLine (q n))).1 =
      (mojiWidthAndCount E.cfg (cutEscapeSequenceAndOldLine (p n))).1
  err : F.promptErr.isNone = E.promptErr.isNone
  sgr : ∀ c, vis (.sgr c) = none
  seePrompt : ∀ p q, E.prompt = some p → F.prompt = some q → ∀ n,
    vis (.lit (q n)) = vis (.lit (p n)) ∧
    vis (.lit ((0x0D :: q n).map (fun b => if b = 0x0A then 0x0D else b))) =
      vis (.lit ((0x0D :: p n).map (fun b => if b = 0x0A then 0x0D else b)))
  seeErr : ∀ e f, E.promptErr = some e → F.promptErr = some f →
    vis (.lit (f ++ [0x0A, 0x24, 0x20])) = vis (.lit (e ++ [0x0A, 0x24, 0x20]))
  seePredict : vis (.lit F.predictColor.1) = vis (.lit E.predictColor.1) ∧
    vis (.lit F.predictColor.2) = vis (.lit E.predictColor.2)
  seeFeed : ∀ r, vis (.lit ((F.lineFeed.map (· r)).getD [0x0A])) =
    vis (.lit ((E.lineFeed.map (· r)).getD [0x0A]))

/-- Two outcomes: the same panic, or results related by `Q`. -/
def Both (vis : Seeing) (Q : α → β → Prop) : M α → M β → Prop
  | .ok a, .ok c => Q a c
  | .error e, .error f => e.kind = f.kind ∧ Twin vis e.st f.st
  | _, _ => False

/-- Results that go with states. -/
def Twin2 (vis : Seeing) (a c : St × α) : Prop := Twin vis a.1 c.1 ∧ c.2 = a.2

/-- A command of the caller that does the same to states that differ only in colours and output. -/
def Unseeing (vis : Seeing) (f : St → M (St × Result)) : Prop := ∀ s t, Twin vis s t → Both vis (Twin2 vis) (f s) (f t)

/-- The commands the caller bound do not look at colours or output. -/
def Env.Unseeing (E : Env) (vis : Seeing) : Prop := ∀ k f, lookupCommand E k = .custom f → Readline.Unseeing vis f

namespace Spec

/-- Everything but colour sequences. -/
def uncoloured : Seeing
  | .sgr _ => none
  | t => some t

/-- Nothing of the output. -/
def nothing : Seeing := fun _ => none

/-- The same settings but for what is written, and prompts that are equally wide. -/
structure EquallyWide (E F : Env) : Prop where
  logic : F.logic = E.logic
  prompt : F.prompt.isNone = E.prompt.isNone
  width : ∀ p q, E.prompt = some p → F.prompt = some q → ∀ n,
    (mojiWidthAndCount F.cfg (cutEscapeSequenceAndOldLine (q n))).1 =
      (mojiWidthAndCount E.cfg (cutEscapeSequenceAndOldLine (p n))).1
  err : F.promptErr.isNone = E.promptErr.isNone

/-- Two sessions end alike: both panic in the same way, or both return the same text and error, with
the same characters, cursor, undo history, view and clipboard, and the same output as far as it is
looked at. -/
def EndAlike (vis : Seeing) : M (St × RLRes) → M (St × RLRes) → Prop
  | .ok (s, r), .ok (t, q) => q = r ∧ t.units = s.units ∧ t.cursor = s.cursor ∧
      t.undoes = s.undoes ∧ t.viewStart = s.viewStart ∧ t.clip = s.clip ∧
      t.out.filterMap vis = s.out.filterMap vis
  | .error p, .error q => q.kind = p.kind
  | _, _ => False

end Spec

end Readline
