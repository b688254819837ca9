import Verif.Model.Buffer
/-!
# Is the text cursor visible?
-/
namespace Readline.Spec

/-- Is the text cursor visible after some output, if it was `v` before? -/
def visible (v : Bool) : List Tok → Bool
  | [] => v
  | .cursorOn :: t => visible true t
  | .cursorOff :: t => visible false t
  | .lit _ :: t => visible v t
  | .gotoCol _ :: t => visible v t
  | .eraseEol :: t => visible v t
  | .sgr _ :: t => visible v t
  | .glyph _ :: t => visible v t
  | .flush :: t => visible v t
  | .await :: t => visible v t

/-- Whenever a key is awaited, the text cursor is visible. -/
def waitsSeen (v : Bool) : List Tok → Bool
  | [] => true
  | .await :: t => v && waitsSeen v t
  | .cursorOn :: t => waitsSeen true t
  | .cursorOff :: t => waitsSeen false t
  | .lit _ :: t => waitsSeen v t
  | .gotoCol _ :: t => waitsSeen v t
  | .eraseEol :: t => waitsSeen v t
  | .sgr _ :: t => waitsSeen v t
  | .glyph _ :: t => waitsSeen v t
  | .flush :: t => waitsSeen v t

end Readline.Spec
