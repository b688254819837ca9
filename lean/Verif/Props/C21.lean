import Verif.Model.ReadLine
/-!
# C21: key lookup precedence and BindKey laws
-/
namespace Readline

/-- Calls `BindKey(k, f)` in order. -/
def bindAll (km : KeyMap) (binds : List (Bytes × Option Cmd)) : KeyMap :=
  binds.foldl (fun km p => KeyMap.bindKey km p.1 p.2) km

/-- The last `BindKey` call for `key` in a list of calls, newest first. -/
def Spec.lastBinding (key : Bytes) : List (Bytes × Option Cmd) → Option (Option Cmd)
  | [] => none
  | (k, f) :: rest => if k = key then some f else Spec.lastBinding key rest

theorem lookup_bindKey (km : KeyMap) (k k' : Bytes) (f : Option Cmd) :
    KeyMap.lookup (KeyMap.bindKey km k f) k' = if k' = k then f else KeyMap.lookup km k' := by
  cases f with
  | none =>
    cases km <;> by_cases h : k' = k <;> simp [KeyMap.lookup, KeyMap.bindKey, h]
  | some f =>
    cases km <;> by_cases h : k' = k <;> simp [KeyMap.lookup, KeyMap.bindKey, h]

theorem lastBinding_append (key : Bytes) (a b : List (Bytes × Option Cmd)) :
    Spec.lastBinding key (a ++ b) = (Spec.lastBinding key a).orElse (fun _ => Spec.lastBinding key b) := by
  induction a with
  | nil => rfl
  | cons p a ih =>
    simp only [List.cons_append, Spec.lastBinding]
    split
    · rfl
    · exact ih

/-- After any sequence of `BindKey` calls a key has its last binding; a key never mentioned
has the binding it had before; `BindKey(k, nil)` leaves `k` unbound. -/
theorem C21_bindings (km : KeyMap) (binds : List (Bytes × Option Cmd)) (key : Bytes) :
    KeyMap.lookup (bindAll km binds) key =
      match Spec.lastBinding key binds.reverse with
      | some f => f
      | none => KeyMap.lookup km key := by
  induction binds generalizing km with
  | nil => rfl
  | cons p l ih =>
    have : bindAll km (p :: l) = bindAll (KeyMap.bindKey km p.1 p.2) l := rfl
    rw [this, ih, List.reverse_cons, lastBinding_append, lookup_bindKey]
    cases Spec.lastBinding key l.reverse with
    | some f => rfl
    | none =>
      by_cases h : key = p.1
      · simp [Spec.lastBinding, h]
      · have h' : ¬ p.1 = key := fun e => h e.symm
        simp [Spec.lastBinding, h, h']

/-- Which command a key runs: the Editor's binding, else the global one, else it inserts
itself. -/
theorem C21_precedence (E : Env) (key : Bytes) :
    lookupCommand E key =
      ((KeyMap.lookup E.keyMap key).orElse
        (fun _ => KeyMap.lookup E.globalKeyMap key)).getD (.selfInsert key) := by
  unfold lookupCommand
  cases KeyMap.lookup E.keyMap key with
  | some f => rfl
  | none => cases KeyMap.lookup E.globalKeyMap key <;> rfl

/-- Both together, for any calls of `BindKey` on the Editor (`es`) and on the global map
(`gs`): the last Editor binding if it is not nil, else the last global one if it is not nil,
else the key inserts itself. -/
theorem C21_dispatch (E : Env) (es gs : List (Bytes × Option Cmd)) (key : Bytes)
    (he : E.keyMap = bindAll none es) (hg : E.globalKeyMap = bindAll none gs) :
    lookupCommand E key =
      match Spec.lastBinding key es.reverse, Spec.lastBinding key gs.reverse with
      | some (some f), _ => f
      | _, some (some g) => g
      | _, _ => .selfInsert key := by
  rw [C21_precedence, he, hg, C21_bindings, C21_bindings]
  simp only [KeyMap.lookup]
  rcases Spec.lastBinding key es.reverse with _ | _ | _ <;>
  rcases Spec.lastBinding key gs.reverse with _ | _ | _ <;> rfl

/-- In the editing loop a key event executes exactly the command looked up. -/
theorem C21_step (E : Env) (s : St) (k : Bytes) (rest : List Ev) (h : s.input = .key k :: rest) :
    step E s = execCmd E (lookupCommand E k) { s.emit .await with input := rest } := by
  unfold step; rw [h]

/-- Non-vacuity: bind `x`, rebind it, bind `y`, unbind `y`. -/
example : KeyMap.lookup (bindAll none [([120], some .yank), ([121], some .undo), ([120], some .killLine),
      ([121], none)]) [120] = some .killLine ∧
    KeyMap.lookup (bindAll none [([120], some .yank), ([121], some .undo), ([120], some .killLine),
      ([121], none)]) [121] = none := by
  constructor <;> rfl

/-- Unbinding in the Editor shows the global binding again. -/
example (cfg : Cfg) : lookupCommand
    { cfg := cfg
      globalKeyMap := defaultGlobalKeyMap
      keyMap := bindAll none [([0x01], some .yank), ([0x01], none)] } [0x01] = .beginningOfLine := by
  rfl

end Readline
