import Verif.Model.ReadLine
/-!
# Commands of the calling program

A program binds its own functions to keys (`BindKey`, keymap.go; `GoCommand`, gommand.go:14-30).
Such a function sees the exported fields and methods of `Buffer` and the other commands.  `Own`
is a program made of them: it looks at the state, calls methods one after the other, and
returns a `Result`.  What it does after a call may depend on everything it has seen.  Not covered:
a function that never returns, and one that changes the fields of `Editor` other than `Cursor`.
-/
namespace Readline

/-- The calls and assignments an own command can make. -/
inductive Api where
  /-- `InsertString`, buffer.go:128-130 -/
  | insertString (pos : Int) (t : Bytes)
  /-- `Delete`, buffer.go:135-148 -/
  | delete (pos n : Int)
  /-- `ResetViewStart`, buffer.go:152-166 -/
  | resetViewStart
  /-- `GetWidthBetween`, buffer.go:169-171 -/
  | getWidthBetween (from_ to : Int)
  /-- `SubString`, buffer.go:174-176 -/
  | subString (start end_ : Int)
  /-- `CurrentWordTop`, buffer.go:187-210 -/
  | currentWordTop
  /-- `CurrentWord`, buffer.go:213-216 -/
  | currentWord
  /-- `GetKey`, buffer.go:243-246 -/
  | getKey
  /-- `InsertAndRepaint`, repaints.go:47-49 -/
  | insertAndRepaint (t : Bytes)
  /-- `GotoHead`, repaints.go:53-55 -/
  | gotoHead
  /-- `DrawFromHead`, repaints.go:84-86 -/
  | drawFromHead
  /-- `ReplaceAndRepaint`, repaints.go:89-98 -/
  | replaceAndRepaint (pos : Int) (t : Bytes)
  /-- `RepaintAfterPrompt`, repaints.go:101-104 -/
  | repaintAfterPrompt
  /-- `RepaintAll`, repaints.go:107-111 -/
  | repaintAll
  /-- `RepaintLastLine`, repaints.go:115-129 -/
  | repaintLastLine
  /-- `B.Cursor = n`, main.go:47 -/
  | setCursor (n : Int)
  /-- `B.ViewStart = n`, buffer.go:36 -/
  | setViewStart (n : Int)
  /-- `B.Buffer = cs`, buffer.go:34 -/
  | setBuffer (cs : List Cell)
  /-- `B.Out.WriteString(t)`, main.go:44 -/
  | write (t : Bytes)
  /-- `c.Call(ctx, B)`, keymap.go:10-13 -/
  | call (c : Cmd)

/-- What a call gives back. -/
inductive Reply where
  | unit
  | num (n : Int)
  | text (t : Bytes)
  | word (t : Bytes) (pos : Int)
  | key (k : Option Bytes)
  | result (r : Result)

/-- One call. -/
def Api.run (E : Env) : Api → St → M (St × Reply)
  | .insertString pos t, s => do
    let (s, cs) ← Readline.insertString E s pos t
    return (s, .num cs.length)
  | .delete pos n, s => do
    let (s, w) ← deleteCells E s pos n
    return (s, .num w)
  | .resetViewStart, s => return (Readline.resetViewStart E s, .unit)
  | .getWidthBetween a b, s => do
    let w ← widthBetween E s a b
    return (s, .num w)
  | .subString a b, s => do
    let t ← Readline.subString s a b
    return (s, .text t)
  | .currentWordTop, s => do
    let p ← Readline.currentWordTop E s
    return (s, .num p)
  | .currentWord, s => do
    let (t, p) ← Readline.currentWord E s
    return (s, .word t p)
  | .getKey, s => return ((Readline.getKey s).2, .key (Readline.getKey s).1)
  | .insertAndRepaint t, s => do
    let s ← Readline.insertAndRepaint E s t
    return (s, .unit)
  | .gotoHead, s => return (Readline.gotoHead s, .unit)
  | .drawFromHead, s => do
    let s ← repaint E s
    return (s, .unit)
  | .replaceAndRepaint pos t, s => do
    let s ← Readline.replaceAndRepaint E s pos t
    return (s, .unit)
  | .repaintAfterPrompt, s => do
    let s ← Readline.repaintAfterPrompt E s
    return (s, .unit)
  | .repaintAll, s => do
    let s ← Readline.repaintAll E s
    return (s, .unit)
  | .repaintLastLine, s => do
    let s ← Readline.repaintLastLine E s
    return (s, .unit)
  | .setCursor n, s => return ({ s with cursor := n }, .unit)
  | .setViewStart n, s => return ({ s with viewStart := n }, .unit)
  | .setBuffer cs, s => return ({ s with buf := cs }, .unit)
  | .write t, s => return (s.emit (.lit t), .unit)
  | .call c, s => do
    let (s, r) ← Cmd.call E c s
    return (s, .result r)

/-- An own command: return, look at the state, or make a call and go on. -/
inductive Own where
  | ret (r : Result)
  | look (next : St → Own)
  | act (a : Api) (next : Reply → Own)

/-- Running an own command. -/
def Own.run (E : Env) : Own → St → M (St × Result)
  | .ret r, s => return (s, r)
  | .look next, s => (next s).run E s
  | .act a next, s => do
    let (s, r) ← a.run E s
    (next r).run E s

/-- The editor as its own commands see it: the calls above do not use the keys. -/
def Env.own (E : Env) : Env := { E with keyMap := none, globalKeyMap := none }

/-- `cmdStartEditor`, examples/example4.go:51-61: the line is given to an editor, and its result
becomes the line.  `edit` is the editor; `none` when it cannot be run. -/
def startEditor (edit : Bytes → Option Bytes) : Own :=
  .look fun s =>
    match edit s.text with
    | none => .ret .cont
    | some t =>
      .act (.setBuffer []) fun _ =>
      .act (.insertString 0 t) fun _ =>
      .look fun s =>
      .act (.setCursor s.len) fun _ =>
      .act .repaintAll fun _ =>
      .ret .cont

end Readline
