import Verif.Model.KeyMap
/-!
# The keys of examples/example3.go

The program binds ten control keys of its editor; three of them insert themselves, because
`GlobalKeyMap` binds them to something else.
-/
namespace Readline

/-- `disableKeys`, examples/example3.go:25-32. -/
def disableKeys (km : KeyMap) : List Bytes → KeyMap
  | [] => km
  | key :: rest => disableKeys (km.bindKey key (some (.selfInsert key))) rest

/-- examples/example3.go:13-32; the key map of an editor that has none yet is the zero value. -/
def wordstarKeys : KeyMap :=
  let km : KeyMap := none
  let km := km.bindKey [0x13] (some .backwardChar)     -- CtrlS
  let km := km.bindKey [0x04] (some .forwardChar)      -- CtrlD
  let km := km.bindKey [0x18] (some .nextHistory)      -- CtrlX
  let km := km.bindKey [0x05] (some .previousHistory)  -- CtrlE
  let km := km.bindKey [0x01] (some .backwardWord)     -- CtrlA
  let km := km.bindKey [0x06] (some .forwardWord)      -- CtrlF
  let km := km.bindKey [0x07] (some .deleteChar)       -- CtrlG
  disableKeys km [[0x02], [0x10], [0x0E]]              -- CtrlB, CtrlP, CtrlN

/-- The editor of examples/example3.go: nothing but the history and the keys is set. -/
def wordstar (E : Env) : Env where
  cfg := E.cfg
  history := E.history
  toUpper := E.toUpper
  clipSet := E.clipSet
  keyMap := wordstarKeys
  globalKeyMap := defaultGlobalKeyMap

end Readline
