import Verif.Model.Registry
/-!
# What a configured key should do

Which command has a name and which command a key has after a program has configured the editor by any
sequence of calls, said by the last call that matters.  The calls themselves (`Deed`) and the tables of
names are those of the program; nothing here uses what the model makes of them.
-/
namespace Readline.Spec

/-- The second text is the first with `_` for `-`. -/
inductive Underscored : List Char → List Char → Prop
  | nil : Underscored [] []
  | hyphen {l m : List Char} : Underscored l m → Underscored ('-' :: l) ('_' :: m)
  | other {c : Char} {l m : List Char} : c ≠ '-' → Underscored l m → Underscored (c :: l) (c :: m)

/-- The text written by the user names `name`: in capitals and with `_` for `-` it is `name`. -/
def Denotes (upper : String → String) (written name : String) : Prop :=
  Underscored (upper written).toList name.toList

/-- No command is created under the name. -/
def Unused (n : String) (ds : List Deed) : Prop := ∀ f, Deed.create n f ∉ ds

/-- After these calls the command has the name: the last one created under it, otherwise the one built in. -/
inductive Owns (ds : List Deed) (n : String) : NamedCmd → Prop
  | builtin {f : Cmd} : (n, f) ∈ nameToFunc → Unused n ds → Owns ds n (.go n (some f))
  | created {past later : List Deed} {f : Option Cmd} : ds = past ++ .create n f :: later → Unused n later →
      Owns ds n (.go n f)

/-- The key with that name sends these bytes. -/
def Sends (upper : String → String) (key : String) (code : Bytes) : Prop :=
  ∃ k, Denotes upper key k ∧ (k, code) ∈ nameToCode

/-- After the calls `past`, the next call gives the key with these bytes the command (`none`: takes its command
away). -/
inductive Gives (upper : String → String) (past : List Deed) (code : Bytes) : Deed → Option NamedCmd → Prop
  | key {f : Option NamedCmd} : Gives upper past code (.bindKey code f) f
  | name {key : String} {f : Option NamedCmd} : Sends upper key code → Gives upper past code (.bindName key f) f
  | found {key name n : String} {c : NamedCmd} : Sends upper key code → Denotes upper name n → Owns past n c →
      Gives upper past code (.bindFound key name) (some c)
  | symbol {key name n : String} {c : NamedCmd} : Sends upper key code → Denotes upper key n → Owns past n c →
      Gives upper past code (.bindSymbol key name) (some c)

/-- None of the calls `later`, made after `past`, concerns the key. -/
def Leaves (upper : String → String) (past later : List Deed) (code : Bytes) : Prop :=
  ∀ a d z, later = a ++ d :: z → ∀ r, ¬ Gives upper (past ++ a) code d r

/-- After these calls the key has the command: what the last call concerning it gave it. -/
inductive Holds (upper : String → String) (ds : List Deed) (code : Bytes) : Option NamedCmd → Prop
  | never : Leaves upper [] ds code → Holds upper ds code none
  | last {past later : List Deed} {d : Deed} {r : Option NamedCmd} : ds = past ++ d :: later →
      Gives upper past code d r → Leaves upper (past ++ [d]) later code → Holds upper ds code r

/-- What pressing a key with the command should carry out: the function of a named command, nothing if it has none,
the insertion of the text of a self-inserter, the function of an anonymous command, or the completion. -/
inductive CarriesOut : NamedCmd → Cmd → Prop
  | named {n : String} {f : Cmd} : CarriesOut (.go n (some f)) f
  | nothing {n : String} {f : St → M (St × Result)} : (∀ s, f s = .ok (s, .cont)) → CarriesOut (.go n none) (.custom f)
  | typed {k : Bytes} : CarriesOut (.selfInserter k) (.selfInsert k)
  | own {f : St → M (St × Result)} : CarriesOut (.anonymous f) (.custom f)
  | completing {P : Completing} : CarriesOut (.completion P) (.completion P)

/-- Capital letters only: what `strings.ToUpper` gives has no small ASCII letter. -/
def Capitals (upper : String → String) : Prop := ∀ s, ∀ c ∈ (upper s).toList, ¬ ('a' ≤ c ∧ c ≤ 'z')

end Readline.Spec
