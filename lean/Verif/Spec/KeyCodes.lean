import Verif.Model.Utf8
/-!
# What the keys of an xterm send

Independent of the tables of the package `keys`.
-/
namespace Readline.Spec

/-- The name with a letter behind it. -/
def named (pre : String) (c : Nat) : String := pre ++ String.singleton (Char.ofNat c)

/-- ESC [ -/
def csi (t : List UInt8) : Bytes := 0x1B :: 0x5B :: t

/-- Decimal digits. -/
def digits (n : Nat) : List UInt8 := if n < 10 then [48 + n.toUInt8] else [48 + (n / 10).toUInt8, 48 + (n % 10).toUInt8]

/-- What an xterm sends for the keys with these names:

* Control and one of `A`…`Z`, `[`, `\`, `]`, `^`, `_`: the code of that character less 64;
* Alt and a letter: ESC and the small letter; Alt and `/`, Alt and Backspace: ESC and that key;
* cursor keys, Home and End: ESC [ and a letter, with `1;5` in between when Control is down;
* editing keys and F5 to F12: ESC [, a number and `~` (11 to 15 are followed by 17 to 21, 23 and 24);
* F1 to F4: ESC O and `P` to `S`; with Shift, that is F13 to F16, ESC [ 1 ; 2 and that letter;
* F17 to F24: as F5 to F12 with `;2` before the `~`. -/
def keyCodes : List (String × Bytes) :=
  ((List.range 26).map fun i => (named "C_" (65 + i), [(1 + i).toUInt8])) ++
  [("C_[", [0x1B]), ("C_\\", [0x1C]), ("C_]", [0x1D]), ("C_^", [0x1E]), ("C_UNDERBAR", [0x1F])] ++
  ((List.range 26).map fun i => (named "M_" (65 + i), [0x1B, (97 + i).toUInt8])) ++
  [("M_OEM_2", [0x1B, 0x2F]), ("M_BACKSPACE", [0x1B, 0x7F])] ++
  [("BACKSPACE", [0x7F]), ("ENTER", [0x0D]), ("ESCAPE", [0x1B])] ++
  ([("UP", 65), ("DOWN", 66), ("RIGHT", 67), ("LEFT", 68), ("END", 70), ("HOME", 72)].map fun p => (p.1, csi [p.2])) ++
  ([("C_UP", 65), ("CTRL_DOWN", 66), ("C_RIGHT", 67), ("C_LEFT", 68)].map fun p => (p.1, csi ([0x31, 0x3B, 0x35, p.2]))) ++
  ([("DELETE", 3), ("PAGEUP", 5), ("PAGEDOWN", 6)].map fun p => (p.1, csi (digits p.2 ++ [0x7E]))) ++
  ([("F1", 80), ("F2", 81), ("F3", 82), ("F4", 83)].map fun p => (p.1, [0x1B, 0x4F, p.2])) ++
  ([("F13", 80), ("F14", 81), ("F15", 82), ("F16", 83)].map fun p => (p.1, csi [0x31, 0x3B, 0x32, p.2])) ++
  ([("F5", 15), ("F6", 17), ("F7", 18), ("F8", 19), ("F9", 20), ("F10", 21), ("F11", 23), ("F12", 24)].map
    fun p => (p.1, csi (digits p.2 ++ [0x7E]))) ++
  ([("F17", 15), ("F18", 17), ("F19", 18), ("F20", 19), ("F21", 20), ("F22", 21), ("F23", 23), ("F24", 24)].map
    fun p => (p.1, csi (digits p.2 ++ [0x3B, 0x32, 0x7E])))

end Readline.Spec
