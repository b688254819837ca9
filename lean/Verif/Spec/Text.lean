import Verif.Model.Utf8
/-!
# Specification vocabulary: text

`utf8 str` is the UTF-8 encoding of a Lean `String`, by Lean's own encoder.  It does not use the
decoder or encoder of the model.
-/
namespace Readline.Spec

/-- UTF-8 bytes of a list of characters, by Lean's encoder. -/
def utf8 (cs : List Char) : List UInt8 := cs.flatMap String.utf8EncodeChar

/-- A byte string that is valid UTF-8. -/
def ValidUtf8 (s : List UInt8) : Prop := ∃ cs : List Char, s = utf8 cs

end Readline.Spec
