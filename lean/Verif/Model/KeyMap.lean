import Verif.Model.Commands
/-!
# Key maps and names

Models keymap.go, keys/code.go, keys/naming.go, nameutils/main.go and
`(*Editor).LookupCommand` (main.go:70-79).
-/
namespace Readline

/-- UTF-8 bytes of a Lean string literal. -/
def b (s : String) : Bytes := s.toUTF8.toList

/-- `(*KeyMap).BindKey`, keymap.go:62-71 (`f = none` is the nil command). -/
def KeyMap.bindKey (km : KeyMap) (key : Bytes) (f : Option Cmd) : KeyMap :=
  let table := km.getD (fun _ => none)
  match f with
  | none => some (fun k => if k = key then none else table k)
  | some f => some (fun k => if k = key then some f else table k)

/-- `(*KeyMap).Lookup`, keymap.go:73-79. -/
def KeyMap.lookup (km : KeyMap) (key : Bytes) : Option Cmd :=
  match km with
  | none => none
  | some table => table key

/-- `(*Editor).LookupCommand`, main.go:70-79. -/
def lookupCommand (E : Env) (key : Bytes) : Cmd :=
  match KeyMap.lookup E.keyMap key with
  | some f => f
  | none =>
    match KeyMap.lookup E.globalKeyMap key with
    | some f => f
    | none => .selfInsert key

/-- Association list to map; a Go map literal has distinct keys. -/
def assoc [BEq κ] (l : List (κ × α)) (k : κ) : Option α := (l.find? (fun p => p.1 == k)).map (·.2)

/-- `GlobalKeyMap`, keymap.go:16-55, with the key codes of keys/code.go. -/
def globalTable : List (Bytes × Cmd) := [
  ([0x1B, 0x62], .backwardWord),          -- AltB
  ([0x1B, 0x66], .forwardWord),           -- AltF
  ([0x1B, 0x76], .yank),                  -- AltV
  ([0x1B, 0x79], .yankWithQuote),         -- AltY
  ([0x7F], .backwardDeleteChar),          -- Backspace
  ([0x01], .beginningOfLine),             -- CtrlA
  ([0x02], .backwardChar),                -- CtrlB
  ([0x03], .interrupt),                   -- CtrlC
  ([0x04], .deleteOrAbort),               -- CtrlD
  ([0x05], .endOfLine),                   -- CtrlE
  ([0x06], .forwardChar),                 -- CtrlF
  ([0x08], .backwardDeleteChar),          -- CtrlH
  ([0x0B], .killLine),                    -- CtrlK
  ([0x0C], .clearScreen),                 -- CtrlL
  ([0x1B, 0x5B, 0x31, 0x3B, 0x35, 0x44], .backwardWord), -- CtrlLeft
  ([0x0D], .acceptLine),                  -- CtrlM
  ([0x0E], .nextHistory),                 -- CtrlN
  ([0x10], .previousHistory),             -- CtrlP
  ([0x11], .quotedInsert),                -- CtrlQ
  ([0x12], .isearchBackward),             -- CtrlR
  ([0x1B, 0x5B, 0x31, 0x3B, 0x35, 0x43], .forwardWord),  -- CtrlRight
  ([0x14], .swapChar),                    -- CtrlT
  ([0x15], .unixLineDiscard),             -- CtrlU
  ([0x1F], .undo),                        -- CtrlUnderbar
  ([0x16], .quotedInsert),                -- CtrlV
  ([0x17], .unixWordRubout),              -- CtrlW
  ([0x19], .yank),                        -- CtrlY
  ([0x1A], .undo),                        -- CtrlZ
  ([0x1B, 0x5B, 0x33, 0x7E], .deleteChar),       -- Delete
  ([0x1B, 0x5B, 0x42], .nextHistory),     -- Down
  ([0x1B, 0x5B, 0x46], .endOfLine),       -- End
  ([0x1B], .killWholeLine),               -- Escape
  ([0x1B, 0x5B, 0x48], .beginningOfLine), -- Home
  ([0x1B, 0x5B, 0x44], .backwardChar),    -- Left
  ([0x1B, 0x5B, 0x43], .forwardChar),     -- Right
  ([0x1B, 0x5B, 0x41], .previousHistory)  -- Up
]

/-- The initial `GlobalKeyMap`, keymap.go:16-55. -/
def defaultGlobalKeyMap : KeyMap := some (assoc globalTable)

/-- `NameToFunc` after package initialisation (gommand.go:32-42 and every `NewGoCommand`
call in gommand.go, history.go, isearch.go). -/
def nameToFunc : List (String × Cmd) := [
  ("ACCEPT_LINE", .acceptLine), ("INTR", .interrupt), ("BEGINNING_OF_LINE", .beginningOfLine),
  ("BACKWARD_CHAR", .backwardChar), ("END_OF_LINE", .endOfLine), ("FORWARD_CHAR", .forwardChar),
  ("BACKWARD_DELETE_CHAR", .backwardDeleteChar), ("DELETE_CHAR", .deleteChar),
  ("DELETE_OR_ABORT", .deleteOrAbort), ("KILL_LINE", .killLine),
  ("KILL_WHOLE_LINE", .killWholeLine), ("UNIX_WORD_RUBOUT", .unixWordRubout),
  ("UNIX_LINE_DISCARD", .unixLineDiscard), ("CLEAR_SCREEN", .clearScreen),
  ("REPAINT_ON_NEWLINE", .repaintOnNewline), ("QUOTED_INSERT", .quotedInsert),
  ("YANK", .yank), ("YANK_WITH_QUOTE", .yankWithQuote), ("SWAPCHAR", .swapChar),
  ("BACKWARD_WORD", .backwardWord), ("FORWARD_WORD", .forwardWord), ("UNDO", .undo),
  ("PREVIOUS_HISTORY", .previousHistory), ("NEXT_HISTORY", .nextHistory),
  ("ISEARCH_BACKWARD", .isearchBackward)]

/-- `NameToCode`, keys/naming.go:7-111, with the constants of keys/code.go:5-110. -/
def nameToCode : List (String × Bytes) := [
  ("BACKSPACE", [0x7F]), ("CLEAR", [0x0C]), ("CTRL", [0x11]), ("CTRL_BREAK", [0x03]),
  ("CTRL_DOWN", [0x1B, 0x5B, 0x42]),
  ("C_A", [0x01]), ("C_B", [0x02]), ("C_C", [0x03]), ("C_D", [0x04]), ("C_E", [0x05]),
  ("C_F", [0x06]), ("C_G", [0x07]), ("C_H", [0x08]), ("C_I", [0x09]), ("C_J", [0x0A]),
  ("C_K", [0x0B]), ("C_L", [0x0C]), ("C_LEFT", [0x1B, 0x5B, 0x31, 0x3B, 0x35, 0x44]),
  ("C_M", [0x0D]), ("C_N", [0x0E]), ("C_O", [0x0F]), ("C_P", [0x10]), ("C_Q", [0x11]),
  ("C_R", [0x12]), ("C_RIGHT", [0x1B, 0x5B, 0x31, 0x3B, 0x35, 0x43]), ("C_S", [0x13]),
  ("C_T", [0x14]), ("C_U", [0x15]), ("C_UNDERBAR", [0x1F]),
  ("C_UP", [0x1B, 0x5B, 0x31, 0x3B, 0x35, 0x41]), ("C_V", [0x16]), ("C_W", [0x17]),
  ("C_X", [0x18]), ("C_Y", [0x19]), ("C_Z", [0x1A]), ("C_[", [0x1B]), ("C_\\", [0x1C]),
  ("C_]", [0x1D]), ("C_^", [0x1E]), ("DELETE", [0x1B, 0x5B, 0x33, 0x7E]),
  ("DOWN", [0x1B, 0x5B, 0x42]), ("END", [0x1B, 0x5B, 0x46]), ("ENTER", [0x0D]),
  ("ESCAPE", [0x1B]), ("F1", [0x1B, 0x5B, 0x4F, 0x50]), ("F10", [0x1B, 0x5B, 0x32, 0x31, 0x7E]),
  ("F11", [0x1B, 0x5B, 0x32, 0x33, 0x7E]), ("F12", [0x1B, 0x5B, 0x32, 0x34, 0x7E]),
  ("F13", [0x7C]), ("F14", [0x7D]), ("F15", [0x7E]), ("F16", [0x7F]), ("F17", [0x80]),
  ("F18", [0x81]), ("F19", [0x82]), ("F2", [0x1B, 0x5B, 0x4F, 0x51]), ("F20", [0x83]),
  ("F21", [0x84]), ("F22", [0x85]), ("F23", [0x86]), ("F24", [0x87]),
  ("F3", [0x1B, 0x5B, 0x4F, 0x52]), ("F4", [0x1B, 0x5B, 0x4F, 0x53]),
  ("F5", [0x1B, 0x5B, 0x31, 0x35, 0x7E]), ("F6", [0x1B, 0x5B, 0x31, 0x36, 0x7E]),
  ("F7", [0x1B, 0x5B, 0x31, 0x37, 0x7E]), ("F8", [0x1B, 0x5B, 0x31, 0x38, 0x7E]),
  ("F9", [0x1B, 0x5B, 0x32, 0x30, 0x7E]), ("HOME", [0x1B, 0x5B, 0x48]),
  ("LEFT", [0x1B, 0x5B, 0x44]), ("M_A", [0x1B, 0x61]), ("M_B", [0x1B, 0x62]),
  ("M_BACKSPACE", [0x7F]), ("M_C", [0x1B, 0x63]), ("M_D", [0x1B, 0x64]), ("M_E", [0x1B, 0x65]),
  ("M_F", [0x1B, 0x66]), ("M_G", [0x1B, 0x67]), ("M_H", [0x1B, 0x68]), ("M_I", [0x1B, 0x69]),
  ("M_J", [0x1B, 0x6A]), ("M_K", [0x1B, 0x6B]), ("M_L", [0x1B, 0x6C]), ("M_M", [0x1B, 0x6D]),
  ("M_N", [0x1B, 0x6E]), ("M_O", [0x1B, 0x6F]), ("M_OEM_2", [0x1B, 0x2F]), ("M_P", [0x1B, 0x70]),
  ("M_Q", [0x1B, 0x71]), ("M_R", [0x1B, 0x72]), ("M_S", [0x1B, 0x73]), ("M_T", [0x1B, 0x74]),
  ("M_U", [0x1B, 0x75]), ("M_V", [0x1B, 0x76]), ("M_W", [0x1B, 0x77]), ("M_X", [0x1B, 0x78]),
  ("M_Y", [0x1B, 0x79]), ("M_Z", [0x1B, 0x7A]), ("PAGEDOWN", [0x1B, 0x5B, 0x36, 0x7E]),
  ("PAGEUP", [0x1B, 0x5B, 0x35, 0x7E]), ("PAUSE", [0x13]), ("RIGHT", [0x1B, 0x5B, 0x43]),
  ("UP", [0x1B, 0x5B, 0x41])]

/-- `keys.NormalizeName`, keys/naming.go:113-115.  `upper` is `strings.ToUpper`. Names are
Lean strings here. -/
def normalizeName (upper : String → String) (src : String) : String :=
  String.ofList ((upper src).toList.map (fun c => if c = '-' then '_' else c))

/-- `nameutils.BindKeyFunc`, nameutils/main.go:10-17: the new key map, or an error. -/
def bindKeyFunc (upper : String → String) (km : KeyMap) (key : String) (f : Option Cmd) :
    Except String KeyMap :=
  match assoc nameToCode (normalizeName upper key) with
  | some code => .ok (KeyMap.bindKey km code f)
  | none => .error (normalizeName upper key ++ ": no such keyname")

/-- `nameutils.GetFunc`, nameutils/main.go:19-25; `tab` is the variable `NameToFunc`. -/
def getFunc (tab : List (String × Cmd)) (upper : String → String) (name : String) :
    Except String Cmd :=
  match assoc tab (normalizeName upper name) with
  | some f => .ok f
  | none => .error (name ++ ": not found in the function-list")

/-- `nameutils.BindKeySymbol`, nameutils/main.go:27-33 (it passes `key`, not `funcName`, to
`GetFunc`). -/
def bindKeySymbol (tab : List (String × Cmd)) (upper : String → String) (km : KeyMap)
    (key _funcName : String) : Except String KeyMap :=
  match getFunc tab upper key with
  | .error e => .error e
  | .ok f => bindKeyFunc upper km key (some f)

end Readline
