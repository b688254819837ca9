import Verif.Props.C36
import Verif.Proof.Session
import Verif.Spec.KeyCodes
/-!
# C47: key names stand for the bytes their keys send

A command bound by key name runs when that key is pressed.  `Spec.keyCodes` is what an xterm
sends.  `C47_partial` covers every name of the table whose key is in `Spec.keyCodes`, except
those in `Spec.misnamed`.  For these the claim is false (`C47_refuted`): the command bound to the
name does not run when the key is pressed.  Binding `F13` even takes away the character `|`
(`C47_refuted_F13`).
-/
namespace Readline

/-- The names of keys/naming.go whose code is not the one the key sends. -/
def Spec.misnamed : List String :=
  ["CTRL_DOWN", "M_BACKSPACE", "F1", "F2", "F3", "F4", "F6", "F7", "F8",
   "F13", "F14", "F15", "F16", "F17", "F18", "F19", "F20", "F21", "F22", "F23", "F24"]

/-- Names for which there is no key on an xterm, or whose key sends nothing. -/
def Spec.keyless : List String := ["CLEAR", "CTRL", "CTRL_BREAK", "PAUSE"]

theorem keyCodes_sound : ∀ p ∈ Spec.keyCodes, p.1 ∉ Spec.misnamed → p ∈ nameToCode := by
  decide +kernel

theorem keyCodes_misnamed : ∀ p ∈ Spec.keyCodes, p.1 ∈ Spec.misnamed →
    ∃ q ∈ nameToCode, q.1 = p.1 ∧ q.2 ≠ p.2 := by
  decide +kernel

/-- The table has no further names. -/
theorem C47_names : ∀ n, n ∈ nameToCode.map (·.1) ↔ n ∈ Spec.keyCodes.map (·.1) ∨ n ∈ Spec.keyless := by
  have h1 : ∀ n ∈ nameToCode.map (·.1), n ∈ Spec.keyCodes.map (·.1) ∨ n ∈ Spec.keyless := by
    decide +kernel
  have h2 : ∀ n ∈ Spec.keyCodes.map (·.1), n ∈ nameToCode.map (·.1) := by decide +kernel
  have h3 : ∀ n ∈ Spec.keyless, n ∈ nameToCode.map (·.1) := by decide +kernel
  exact fun n => ⟨h1 n, fun h => h.elim (h2 n) (h3 n)⟩

/-- A command bound to any spelling of a key name is the one that runs when the editor reads what
that key sends; keys that send something else do what they did before. -/
theorem C47_partial {upper : String → String} (hu : Spec.AsciiUpper upper) (km : KeyMap) (f : Cmd)
    {written name : String} {code : Bytes} (hs : Spec.Spelling written name)
    (hk : (name, code) ∈ Spec.keyCodes) (hn : name ∉ Spec.misnamed) :
    ∃ km', bindKeyFunc upper km written (some f) = .ok km' ∧
      (∀ (E : Env) (s : St) (rest : List Ev), E.keyMap = km' → s.input = .key code :: rest →
        step E s = execCmd E f { s.emit .await with input := rest }) ∧
      (∀ (E : Env) (k : Bytes), k ≠ code →
        lookupCommand { E with keyMap := km' } k = lookupCommand { E with keyMap := km } k) := by
  obtain ⟨km', h1, h2⟩ := C36_bindKeyFunc hu km (some f) hs (keyCodes_sound _ hk hn)
  refine ⟨km', h1, fun E s rest hE hi => ?_, fun E k hne => ?_⟩
  · rw [step_key hi]
    have : lookupCommand E code = f := by
      unfold lookupCommand
      rw [hE, h2 code, if_pos rfl]
    rw [this]
  · unfold lookupCommand
    simp only [h2 k, if_neg hne]

/-- For the misnamed keys, binding the name leaves what the key does as it was. -/
theorem C47_refuted {upper : String → String} (hu : Spec.AsciiUpper upper) (km : KeyMap)
    (f : Option Cmd) {written name : String} {code : Bytes} (hs : Spec.Spelling written name)
    (hk : (name, code) ∈ Spec.keyCodes) (hn : name ∈ Spec.misnamed) :
    ∃ km', bindKeyFunc upper km written f = .ok km' ∧
      ∀ E : Env, lookupCommand { E with keyMap := km' } code =
        lookupCommand { E with keyMap := km } code := by
  obtain ⟨⟨n, c⟩, hm, rfl, hc⟩ := keyCodes_misnamed _ hk hn
  obtain ⟨km', h1, h2⟩ := C36_bindKeyFunc hu km f hs hm
  refine ⟨km', h1, fun E => ?_⟩
  unfold lookupCommand
  simp only [h2 code, if_neg (Ne.symm hc)]

/-- Whoever binds `F13` can no longer type `|`. -/
theorem C47_refuted_F13 {upper : String → String} (hu : Spec.AsciiUpper upper) (km : KeyMap)
    (f : Cmd) {written : String} (hs : Spec.Spelling written "F13") :
    ∃ km', bindKeyFunc upper km written (some f) = .ok km' ∧
      ∀ E : Env, lookupCommand { E with keyMap := km' } [0x7C] = f := by
  obtain ⟨km', h1, h2⟩ := C36_bindKeyFunc hu km (some f) hs
    (show ("F13", [0x7C]) ∈ nameToCode by decide +kernel)
  refine ⟨km', h1, fun E => ?_⟩
  unfold lookupCommand
  simp only [h2, if_pos]

/-- Non-vacuity. -/
example : ("C_U", [0x15]) ∈ Spec.keyCodes ∧ "C_U" ∉ Spec.misnamed ∧ Spec.Spelling "c-u" "C_U" := by
  refine ⟨by decide +kernel, by decide +kernel, ?_⟩
  unfold Spec.Spelling; decide +kernel
example : ("F12", [0x1B, 0x5B, 0x32, 0x34, 0x7E]) ∈ Spec.keyCodes := by decide +kernel
example : ("CTRL_DOWN", [0x1B, 0x5B, 0x31, 0x3B, 0x35, 0x42]) ∈ Spec.keyCodes ∧
    Spec.Spelling "ctrl-down" "CTRL_DOWN" := by
  refine ⟨by decide +kernel, ?_⟩
  unfold Spec.Spelling; decide +kernel

end Readline
