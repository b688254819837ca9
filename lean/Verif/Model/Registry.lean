import Verif.Model.KeyMap
/-!
# Commands with their names, and programs that configure the editor

Models `String()` of every implementation of `Command` (gommand.go:20-22, 194-196, keymap.go:81-89,
completion/main.go:182-184, 196-198), `NewGoCommand` and the variable `NameToFunc` while the program
runs (gommand.go:32-42), key maps that hold commands with names (keymap.go:58-79), the functions
of nameutils/main.go on them, and any sequence of such calls.  `Model/KeyMap.lean` has the key maps and names
without `String()`, with `NameToFunc` as it is when the program starts.
-/
namespace Readline

/-- The values of `Command` (keymap.go:10-13): `*GoCommand` (gommand.go:14-17; the function is given as the
`Cmd` that it carries out, `none` is nil), `SelfInserter` (gommand.go:192), `AnonymousCommand`
(keymap.go:81) and the two commands of the package `completion` (with `box` for the second,
completion/main.go:177-208). -/
inductive NamedCmd where
  | go (name : String) (func : Option Cmd)
  | selfInserter (k : Bytes)
  | anonymous (f : St → M (St × Result))
  | completion (P : Completing)

/-- `String()`: gommand.go:20-22, gommand.go:194-196, keymap.go:83-85, completion/main.go:182-184 and
196-198. -/
def NamedCmd.string : NamedCmd → Bytes
  | .go name _ => b name
  | .selfInserter k => k
  | .anonymous _ => b "anonymous"
  | .completion P => if P.box.isNone then b "COMPLETION" else b "COMPLETION_OR_LIST"

/-- `Call`: gommand.go:25-30 (a nil function gives `CONTINUE`), gommand.go:198-229, keymap.go:87-89,
completion/main.go:186-189 and 200-208. -/
def NamedCmd.cmd : NamedCmd → Cmd
  | .go _ none => .custom fun s => .ok (s, .cont)
  | .go _ (some c) => c
  | .selfInserter k => .selfInsert k
  | .anonymous f => .custom f
  | .completion P => .completion P

/-- `NameToFunc`, gommand.go:32; the first pair with a name counts. -/
abbrev Registry := List (String × NamedCmd)

/-- `NewGoCommand`, gommand.go:35-42: the command and `NameToFunc` afterwards. -/
def newGoCommand (reg : Registry) (name : String) (f : Option Cmd) : Registry × NamedCmd :=
  ((name, .go name f) :: reg, .go name f)

/-- `NameToFunc` when the program starts: the calls of `NewGoCommand` in gommand.go, history.go and
isearch.go. -/
def initialRegistry : Registry :=
  nameToFunc.foldr (fun p reg => (newGoCommand reg p.1 (some p.2)).1) []

/-- `nameutils.GetFunc`, nameutils/main.go:19-25. -/
def Registry.getFunc (reg : Registry) (upper : String → String) (name : String) :
    Except String NamedCmd :=
  match assoc reg (normalizeName upper name) with
  | some f => .ok f
  | none => .error (name ++ ": not found in the function-list")

/-- `KeyMap`, keymap.go:58-60, with the commands and their names. -/
abbrev NamedMap := Option (Bytes → Option NamedCmd)

/-- `(*KeyMap).BindKey`, keymap.go:62-71. -/
def NamedMap.bindKey (km : NamedMap) (key : Bytes) (f : Option NamedCmd) : NamedMap :=
  let table := km.getD (fun _ => none)
  match f with
  | none => some (fun k => if k = key then none else table k)
  | some f => some (fun k => if k = key then some f else table k)

/-- `(*KeyMap).Lookup`, keymap.go:73-79. -/
def NamedMap.lookup (km : NamedMap) (key : Bytes) : Option NamedCmd :=
  match km with
  | none => none
  | some table => table key

/-- The key map without the names: what its commands do. -/
def NamedMap.plain (km : NamedMap) : KeyMap := km.map fun t k => (t k).map NamedCmd.cmd

/-- The initial `GlobalKeyMap`, keymap.go:16-55, with the commands and their names: it holds the
commands made by `NewGoCommand`. -/
def namedGlobalMap : NamedMap := some fun k =>
  (assoc globalTable k).bind fun c => (initialRegistry.find? fun p => p.2.cmd.ctorIdx == c.ctorIdx).map (·.2)

/-- `(*Editor).LookupCommand`, main.go:70-79, with the commands and their names. -/
def namedCommand (own global : NamedMap) (key : Bytes) : NamedCmd :=
  match own.lookup key with
  | some f => f
  | none =>
    match global.lookup key with
    | some f => f
    | none => .selfInserter key

/-- `nameutils.BindKeyFunc`, nameutils/main.go:10-17. -/
def NamedMap.bindKeyFunc (upper : String → String) (km : NamedMap) (key : String) (f : Option NamedCmd) :
    Except String NamedMap :=
  match assoc nameToCode (normalizeName upper key) with
  | some code => .ok (km.bindKey code f)
  | none => .error (normalizeName upper key ++ ": no such keyname")

/-- `nameutils.BindKeySymbol`, nameutils/main.go:27-33. -/
def NamedMap.bindKeySymbol (reg : Registry) (upper : String → String) (km : NamedMap)
    (key _funcName : String) : Except String NamedMap :=
  match reg.getFunc upper key with
  | .error e => .error e
  | .ok f => km.bindKeyFunc upper key (some f)

/-- What a program may do to configure the editor:
* `create`: `NewGoCommand(name, f)`
* `bindKey`: `km.BindKey(code, f)`
* `bindName`: `nameutils.BindKeyFunc(km, key, f)`
* `bindFound`: `if f, err := nameutils.GetFunc(name); err == nil { nameutils.BindKeyFunc(km, key, f) }`
* `bindSymbol`: `nameutils.BindKeySymbol(km, key, name)`; errors are ignored. -/
inductive Deed where
  | create (name : String) (f : Option Cmd)
  | bindKey (code : Bytes) (f : Option NamedCmd)
  | bindName (key : String) (f : Option NamedCmd)
  | bindFound (key name : String)
  | bindSymbol (key name : String)

/-- One such call, on `NameToFunc` and the key map `km` of the editor. -/
def Deed.run (upper : String → String) : Deed → Registry × NamedMap → Registry × NamedMap
  | .create name f, (reg, km) => ((newGoCommand reg name f).1, km)
  | .bindKey code f, (reg, km) => (reg, km.bindKey code f)
  | .bindName key f, (reg, km) =>
    match km.bindKeyFunc upper key f with
    | .ok km => (reg, km)
    | .error _ => (reg, km)
  | .bindFound key name, (reg, km) =>
    match reg.getFunc upper name with
    | .error _ => (reg, km)
    | .ok f =>
      match km.bindKeyFunc upper key (some f) with
      | .ok km => (reg, km)
      | .error _ => (reg, km)
  | .bindSymbol key name, (reg, km) =>
    match km.bindKeySymbol reg upper key name with
    | .ok km => (reg, km)
    | .error _ => (reg, km)

/-- A sequence of such calls when the program starts, on an editor without own bindings. -/
def configure (upper : String → String) (ds : List Deed) : Registry × NamedMap :=
  ds.foldl (fun p d => d.run upper p) (initialRegistry, none)

end Readline
