import Verif.Model.ReadLine
/-!
# A command is carried out

Claims about single commands are stated with `Performs`: the command is called on a state, as another
command may do, or it is carried out by the session because a key is bound to it, possibly after resizes.
-/
namespace Readline.Spec

/-- What `ReadLine` returns as error when a command ends it. -/
inductive EndsWith : Result → RLErr → Prop where
  | enter : EndsWith .enter .nil
  | intr : EndsWith .intr .ctrlC
  | abort : EndsWith .abort .eof

/-- Command `c` takes the editor from the first state to the second with a result. -/
inductive Performs (E : Env) (c : Cmd) : St → St → Result → Prop where
  | call {s s' rc} : Cmd.call E c s = .ok (s', rc) → Performs E c s s' rc
  | key {s s' k rest} : s.input = .key k :: rest → lookupCommand E k = c → step E s = .ok (s', none) →
      Performs E c s s' .cont
  | last {s s' k rest r rc} : s.input = .key k :: rest → lookupCommand E k = c → step E s = .ok (s', some r) →
      EndsWith rc r.err → Performs E c s s' rc
  | resize {s s1 s' n rest rc} : s.input = .resize n :: rest → step E s = .ok (s1, none) →
      Performs E c s1 s' rc → Performs E c s s' rc

end Readline.Spec
