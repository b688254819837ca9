import Verif.Spec.Line
import Verif.Spec.Text
import Verif.Model.ReadLine
/-!
# Concrete settings for the examples beside the theorems
-/
namespace Readline.Example

/-- A terminal with every feature switched off; one column below U+1100, two from there on. -/
def plain : Cfg where
  surrogateOk := true
  zwjOk := false
  varOk := false
  modOk := false
  ambWide := false
  width := fun r => if r < 0x1100 then 1 else 2
  zwjWidth := defaultZwjWidth
  varSel := fun r => 0xFE00 ≤ r ∧ r ≤ 0xFE0F

/-- A terminal with every feature switched on. -/
def full : Cfg := { plain with zwjOk := true, varOk := true, modOk := true }

/-- An editor with the default keys. -/
def env (C : Cfg) : Env := { cfg := C, globalKeyMap := defaultGlobalKeyMap }

/-- One key per string. -/
def keys (l : List String) : List Ev := l.map (fun k => .key (b k))

/-- What can be seen of a session: the panic, or the result. -/
def outcome (x : M (St × RLRes)) : PanicKind ⊕ (Bytes × RLErr) :=
  match x with
  | .error p => .inl p.kind
  | .ok (_, r) => .inr (r.text, r.err)

/-- The state after `n` events. -/
def after (E : Env) (w : World) : Nat → M St
  | 0 => startSt E w
  | n + 1 => do
    let s ← after E w n
    let (s, _) ← step E s
    return s

/-- Units, cursor and first visible unit. -/
def look (x : M St) : PanicKind ⊕ (List Bytes × Int × Int) :=
  match x with
  | .error p => .inl p.kind
  | .ok s => .inr (s.units, s.cursor, s.viewStart)

end Readline.Example
