import Verif.Model.ReadLine
import Verif.Spec.Completion
import Verif.Spec.Text
/-!
# Where the characters come from
-/
namespace Readline.Spec

/-- All code points of the text satisfy `P`; bytes that are not UTF-8 count as U+FFFD. -/
def Over (P : Nat → Prop) (t : Bytes) : Prop := ∀ r ∈ runesOf t, P r

/-- The bytes a key inserts: an ESC before a single byte is dropped. -/
def inserted (k : Bytes) : Bytes :=
  match k with
  | [0x1B, x] => [x]
  | k => k

/-- `k` may be typed into the line: a key runs the command that inserts `k`, or `k` is a key and a
key runs `QuotedInsert`. -/
def FromKey (E : Env) (w : World) (k : Bytes) : Prop :=
  (∃ q, .key q ∈ w.input ∧ lookupCommand E q = .selfInsert k) ∨
  (∃ q, .key q ∈ w.input ∧ lookupCommand E q = .quotedInsert) ∧ .key k ∈ w.input

/-- A typed key that begins with a join control is valid UTF-8. -/
def WholeKeys (E : Env) (w : World) : Prop :=
  E.cfg.zwjOk = true → ∀ k, FromKey E w k →
    (decodeRune (inserted k)).1 = 0x200C ∨ (decodeRune (inserted k)).1 = 0x200D → ValidUtf8 (inserted k)

/-- A predictor of the program adds only code points satisfying `P` to lines and a history of such. -/
def PredictsOver (P : Nat → Prop) (E : Env) : Prop :=
  ∀ f, E.predictor = some f → ∀ t, ValidUtf8 t → Over P t → Over P (f E.history t)

/-- The texts a session starts from consist of code points satisfying `P`: the text given with
`Default`, the history, the clipboard, what is predicted, and the keys that insert themselves; with
`QuotedInsert` among the keys all keys count, with a completion command whatever it inserts, with
`YankWithQuote` the quotation mark. -/
structure Sources (P : Nat → Prop) (E : Env) (w : World) : Prop where
  default : Over P E.default
  history : ∀ h ∈ E.history, Over P h
  clip : ∀ t, w.clip = some t → Over P t
  /-- the clipboard gives back what it was given, or something else over `P` -/
  clipSet : ∀ c t u, E.clipSet c t = some u → u = t ∨ c = some u ∨ Over P u
  /-- the predictor, unless it is the one that looks up the history -/
  predict : PredictsOver P E
  keys : ∀ k, FromKey E w k → Over P (inserted k)
  completion : ∀ q K, .key q ∈ w.input → lookupCommand E q = .completion K →
    ∀ texts pos t, completionOf K.uni K.completer K.postfix_ texts = .insert pos t → Over P t
  quotes : ∀ q, .key q ∈ w.input → lookupCommand E q = .yankWithQuote → P 0x22
  /-- with joining enabled, U+200D and U+FFFD may stand for join controls (see C05), and a key
  that begins with one is valid UTF-8 -/
  joined : E.cfg.zwjOk = true → P 0x200C ∨ P 0x200D → P 0x200D ∧ P 0xFFFD
  whole : WholeKeys E w

end Readline.Spec
