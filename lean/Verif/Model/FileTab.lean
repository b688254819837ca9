import Verif.Model.Completion
import Verif.Model.KeyMap
/-!
# Completing file names

The completion commands with `completion.File` (completion/file.go), as completion/example.go:17-19
and examples/example2.go:38-41 bind them to the tab key.  `File.List` may panic or never return, so
the command is not one of `Cmd.completion`, whose completers always answer.
-/
namespace Readline

/-- `completion.File` where `List` returns: `Enclosures` and `Delimiters` of completion/file.go:11-17.
Two rounds of the loop are enough for `List` to return, if it does (`candidates_none`, `candidates_some`). -/
def fileCompleter (U : Uni) (rd : ReadDir) : Completer where
  delimiters := [0x26, 0x7C, 0x3E, 0x3C, 0x3B]
  enclosures := [0x22, 0x27]
  list := fun fields =>
    match fileList U rd 2 fields with
    | .done l => (l.map Prod.fst, l.map Prod.snd)
    | _ => ([], [])

/-- The two completion commands with `completion.File`. -/
def fileCompleting (U : Uni) (rd : ReadDir) (postfix_ : Bytes) (box : Option (List Bytes → Bytes)) : Completing where
  uni := U
  completer := fileCompleter U rd
  postfix_ := postfix_
  box := box

/-- `Call` of the completion commands with `completion.File`, completion/main.go:137-208: the fields
are found, `File.List` is called (completion/main.go:145), and the rest is as with any completer. -/
def cmdFile (U : Uni) (rd : ReadDir) (postfix_ : Bytes) (box : Option (List Bytes → Bytes)) (E : Env) (s : St) :
    M (St × Result) := do
  let (fields, _) ← split (fileCompleter U rd).enclosures (fileCompleter U rd).delimiters s
  match fileList U rd 2 fields with
  | .panic => .error ⟨.bounds, s⟩
  | .running => .error ⟨.diverge, s⟩
  | .done _ => cmdComplete E (fileCompleting U rd postfix_ box) s

/-- The editor with file completion on the key `k`: `BindKey` with one of the completion commands, as in examples/example2.go:37-40
and completion/example.go:17-20. -/
def bindFiles (U : Uni) (rd : ReadDir) (post : Bytes) (box : Option (List Bytes → Bytes)) (k : Bytes) (E : Env) : Env :=
  { E with keyMap := some fun x => if x = k then some (.custom (cmdFile U rd post box E)) else KeyMap.lookup E.keyMap x }

end Readline
