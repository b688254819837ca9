import Verif.Spec.Seen
/-!
# Prompts on a terminal
-/
namespace Readline.Spec

/-- A prompt as it is seen: whether it goes to the next row first, and the characters it shows there. -/
structure Sign where
  down : Bool
  shown : List Rune

/-- The default prompt. -/
def usualSign : Sign := ⟨true, "> ".toList.map Char.toNat⟩

/-- The columns of a prompt. -/
def Sign.columns (S : Sign) (C : Cfg) : Int := textColumns C S.shown

/-- The row `y` begins with the prompt. -/
def Sign.At (S : Sign) (C : Cfg) (adv : Rune → Int) (v : Vt) (y : Int) : Prop :=
  ∀ x, 0 ≤ x → x < S.columns C → v.cells y x = picture C adv S.shown 0 x

/-- The bytes of the prompt when it is written for the `n`th time. -/
def signBytes (E : Env) (n : Nat) : Bytes :=
  match E.prompt with
  | none => [0x0A, 0x3E, 0x20]
  | some p => p n

/-- The bytes with which it is written again after a resize. -/
def signAgain (E : Env) (n : Nat) : Bytes :=
  match E.prompt with
  | none => [0x0D, 0x3E, 0x20]
  | some p => (0x0D :: p n).map (fun b => if b = 0x0A then 0x0D else b)

/-- The bytes `b` write the prompt at the beginning of the row, or of the next one, and nothing into the other rows; then the
terminal is ready for more, behind the prompt. -/
def Sign.Hangs (S : Sign) (C : Cfg) (adv : Rune → Int) (v : Vt) (b : Bytes) : Prop :=
  let u := if S.down then v.newline else v
  (v.run adv b).mode = .ground ∧ (v.run adv b).height = u.height ∧ (v.run adv b).row = u.row ∧
  (∀ y, y ≠ u.row → (v.run adv b).cells y = u.cells y) ∧ (v.run adv b).col = S.columns C ∧ S.At C adv (v.run adv b) u.row

/-- The prompt of the editor on a terminal of `W` columns. -/
structure Sign.Of (S : Sign) (E : Env) (adv : Rune → Int) (W : Int) : Prop where
  /-- readline takes the prompt for as wide as it is -/
  width : ∀ n, promptWidth E n = S.columns E.cfg
  plain : ∀ r ∈ S.shown, Plain E.cfg r ∧ isScalar r = true
  text : ∀ b, PromptText E b → Landed adv W b
  /-- written from the beginning of a row, or from anywhere if it goes to the next row -/
  first : ∀ n (v : Vt), v.mode = .ground → v.width = W → 0 ≤ v.col → S.down = true ∨ v.col = 0 → S.Hangs E.cfg adv v (signBytes E n)
  /-- written again -/
  again : ∀ n (v : Vt), v.mode = .ground → v.width = W → 0 ≤ v.col → Sign.Hangs ⟨false, S.shown⟩ E.cfg adv v (signAgain E n)

end Readline.Spec
