import Verif.Props.C04
import Verif.Spec.Search
/-!
# Ways to enter a line again

The claims of C62 are stated with these definitions: which events amount to which line when the
lines entered so far are given.
-/
namespace Readline.Spec

/-- The command is given `n` times, with resizes at any time. -/
inductive Presses (E : Env) (c : Cmd) : List Ev → Nat → Prop where
  | nil : Presses E c [] 0
  | resize {evs n w} : Presses E c evs n → Presses E c (.resize w :: evs) n
  | key {evs n k} : lookupCommand E k = c → Presses E c evs n → Presses E c (.key k :: evs) (n + 1)

/-- `t` is the newest of the lines satisfying `p`. -/
def IsNewest (p : Bytes → Prop) (h : List Bytes) (t : Bytes) : Prop :=
  ∃ older newer, h = older ++ t :: newer ∧ p t ∧ ∀ u ∈ newer, ¬ p u

/-- The events amount to a line, when `h` are the lines entered before: it is typed; or the `n`-th
line from the end is fetched with `n` times Up; or a word of it is searched for; or its beginning is typed
and the prediction accepted.  Something may be typed before Up and before the search. -/
inductive Enters (E : Env) (h : List Bytes) : List Ev → List Char → Prop where
  | typed {evs ks} : Types E evs ks → Fits E.cfg .nothing ks → Enters E h evs ks.flatten
  | up {evs ks ups n cs} : Types E evs ks → Presses E .previousHistory ups n → 0 < n → n ≤ h.length →
      h[h.length - n]? = some (utf8 cs) → Enters E h (evs ++ ups) cs
  | search {evs ks k found rs cs} {word : List Char} : Types E evs ks → lookupCommand E k = .isearchBackward →
      NoErr found → keysIn found = word.map (fun c => utf8 [c]) → word ≠ [] →
      (∀ c ∈ word, ¬ isCtl c.toNat) → IsNewest (fun t => occurs E.toUpper (utf8 word) t = true) h (utf8 cs) →
      resizesIn rs = rs →
      Enters E h (evs ++ .key k :: (found ++ .key (b "\r") :: rs)) cs
  | predicted {evs ks k rs cs} : E.predictColor.1 ≠ [] → E.predictor = none → Types E evs ks →
      Fits E.cfg .nothing ks → ks.flatten ≠ [] → lookupCommand E k = .forwardChar →
      IsNewest (fun t => utf8 ks.flatten <+: t) h (utf8 (ks.flatten ++ cs)) →
      resizesIn rs = rs → Enters E h (evs ++ .key k :: rs) (ks.flatten ++ cs)

/-- One line after the other is entered, starting with the lines `h` and ending with the lines `h'`;
lines for which `keep` is false are forgotten. -/
inductive Script (E : Env) (keep : Bytes → Bool) : List Bytes → List Ev → List Bytes → List Ev → Prop where
  | done {h left} : Script E keep h left h left
  | line {h evs cs enter rest h' left} : Enters E h evs cs → lookupCommand E enter = .acceptLine →
      Script E keep (if keep (utf8 cs) then h ++ [utf8 cs] else h) rest h' left →
      Script E keep h (evs ++ .key enter :: rest) h' left

end Readline.Spec
