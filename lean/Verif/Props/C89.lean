import Verif.Props.C48
import Verif.Spec.Config
/-!
# C89: commands and keys by name, in programs that add their own commands

A program may create commands of its own with `NewGoCommand`, and bind commands to keys by code or by name, in any
order.  `C89_partial`: a key then runs what the last call concerning it gave it; the command with a name is
the last one created under it (`C89_found`), and its `String()` is that name (`C89_string`).

Not so: a command created under a name with a small letter or `-` is never found by `GetFunc`
(`C89_hidden`), so `GetFunc(c.String())` fails (`C89_string_refuted`).  `BindKeySymbol(km, key, name)` binds
something exactly when the program created a command under the name of the *key*, and binds that
(`C89_symbol`, `C89_symbol_refuted`).
-/
namespace Readline

/-! ## Names -/

theorem denotes_iff {upper : String → String} {w n : String} : Spec.Denotes upper w n ↔ normalizeName upper w = n := by
  unfold Spec.Denotes normalizeName
  generalize (upper w).toList = l
  rw [show (String.ofList (l.map fun c => if c = '-' then '_' else c) = n) ↔
    (l.map fun c => if c = '-' then '_' else c) = n.toList from
    ⟨fun h => by rw [← h, String.toList_ofList], fun h => by rw [h, String.ofList_toList]⟩]
  generalize n.toList = m
  induction l generalizing m with
  | nil =>
    cases m with
    | nil => exact ⟨fun _ => rfl, fun _ => .nil⟩
    | cons d m => exact ⟨nofun, nofun⟩
  | cons c l ih =>
    constructor
    · intro h
      cases h with
      | hyphen h => rw [List.map_cons, (ih _).mp h]; rfl
      | other hc h => rw [List.map_cons, (ih _).mp h, if_neg hc]
    · intro h
      subst h
      rw [List.map_cons]
      by_cases hc : c = '-'
      · subst hc; exact .hyphen ((ih _).mpr rfl)
      · rw [if_neg hc]; exact .other hc ((ih _).mpr rfl)

theorem spelling_denotes {upper : String → String} (hu : Spec.AsciiUpper upper) {w n : String} (h : Spec.Spelling w n) :
    Spec.Denotes upper w n := denotes_iff.mpr (normalize_spelling hu h)

theorem assoc_cons [DecidableEq κ] (l : List (κ × α)) (k k' : κ) (a : α) :
    assoc ((k, a) :: l) k' = if k = k' then some a else assoc l k' := by
  unfold assoc
  rw [List.find?_cons]
  by_cases h : k = k'
  · simp [h]
  · have : (k == k') = false := by simpa using h
    rw [if_neg h]
    simp only [this]

theorem initialRegistry_eq : initialRegistry = nameToFunc.map fun p => (p.1, NamedCmd.go p.1 (some p.2)) := by
  unfold initialRegistry
  generalize nameToFunc = l
  induction l with
  | nil => rfl
  | cons p l ih => rw [List.foldr_cons, ih]; rfl

theorem initial_assoc (n : String) (c : NamedCmd) :
    assoc initialRegistry n = some c ↔ ∃ f, (n, f) ∈ nameToFunc ∧ c = .go n (some f) := by
  have hn : (initialRegistry.map (·.1)).Nodup := by
    rw [initialRegistry_eq, List.map_map]
    exact nameToFunc_nodup
  constructor
  · intro h
    have := assoc_some h
    rw [initialRegistry_eq] at this
    obtain ⟨⟨m, f⟩, hm, e⟩ := List.mem_map.mp this
    cases e
    exact ⟨f, hm, rfl⟩
  · rintro ⟨f, hm, rfl⟩
    apply assoc_of_mem hn
    rw [initialRegistry_eq]
    exact List.mem_map.mpr ⟨_, hm, rfl⟩

/-! ## Which command has a name -/

theorem configure_snoc (upper : String → String) (ds : List Deed) (d : Deed) :
    configure upper (ds ++ [d]) = d.run upper (configure upper ds) := by
  unfold configure
  rw [List.foldl_append]
  rfl

theorem run_registry (upper : String → String) (d : Deed) (p : Registry × NamedMap) (n : String) :
    (∃ f, d = .create n f ∧ assoc (d.run upper p).1 n = some (.go n f)) ∨
    ((∀ f, d ≠ .create n f) ∧ assoc (d.run upper p).1 n = assoc p.1 n) := by
  obtain ⟨reg, km⟩ := p
  cases d with
  | create m f =>
    by_cases h : m = n
    · subst h
      exact .inl ⟨f, rfl, by simp [Deed.run, newGoCommand, assoc_cons]⟩
    · refine .inr ⟨fun f e => h (by cases e; rfl), ?_⟩
      simp [Deed.run, newGoCommand, assoc_cons, h]
  | bindKey code f => exact .inr ⟨nofun, rfl⟩
  | bindName key f =>
    refine .inr ⟨nofun, ?_⟩
    unfold Deed.run; dsimp only; split <;> rfl
  | bindFound key name =>
    refine .inr ⟨nofun, ?_⟩
    unfold Deed.run; dsimp only; split
    · rfl
    · split <;> rfl
  | bindSymbol key name =>
    refine .inr ⟨nofun, ?_⟩
    unfold Deed.run; dsimp only; split <;> rfl

theorem snoc_split {ds past later : List α} {d e : α} (h : ds ++ [d] = past ++ e :: later) :
    (later = [] ∧ ds = past ∧ d = e) ∨ ∃ l, later = l ++ [d] ∧ ds = past ++ e :: l := by
  rcases List.eq_nil_or_concat later with rfl | ⟨l, x, rfl⟩
  · have := List.append_inj' h rfl
    exact .inl ⟨rfl, this.1, by simpa using this.2⟩
  · rw [List.concat_eq_append, ← List.cons_append, ← List.append_assoc] at h
    have := List.append_inj' h rfl
    have e : d = x := by simpa using this.2
    subst e
    exact .inr ⟨l, by rw [List.concat_eq_append], this.1⟩

theorem snocRec {P : List α → Prop} (nil : P []) (snoc : ∀ l a, P l → P (l ++ [a])) (l : List α) : P l := by
  have h : ∀ l : List α, P l.reverse := by
    intro l
    induction l with
    | nil => exact nil
    | cons a l ih => rw [List.reverse_cons]; exact snoc _ _ ih
  have := h l.reverse
  rwa [List.reverse_reverse] at this

theorem owns_nil (n : String) (c : NamedCmd) :
    Spec.Owns [] n c ↔ ∃ f, (n, f) ∈ nameToFunc ∧ c = .go n (some f) := by
  constructor
  · intro h
    cases h with
    | builtin hm _ => exact ⟨_, hm, rfl⟩
    | created h _ => simp at h
  · rintro ⟨f, hm, rfl⟩
    exact .builtin hm fun f h => by cases h

theorem owns_snoc (ds : List Deed) (d : Deed) (n : String) (c : NamedCmd) :
    Spec.Owns (ds ++ [d]) n c ↔
      (∃ f, d = .create n f ∧ c = .go n f) ∨ ((∀ f, d ≠ .create n f) ∧ Spec.Owns ds n c) := by
  constructor
  · intro h
    cases h with
    | builtin hm hu =>
      refine .inr ⟨fun f e => hu f (by simp [e]), .builtin hm fun f h => hu f (by simp [h])⟩
    | created h hu =>
      rcases snoc_split h with ⟨_, _, rfl⟩ | ⟨l, rfl, rfl⟩
      · exact .inl ⟨_, rfl, rfl⟩
      · exact .inr ⟨fun f e => hu f (by simp [e]), .created rfl fun f h => hu f (by simp [h])⟩
  · rintro (⟨f, rfl, rfl⟩ | ⟨hd, h⟩)
    · exact .created rfl fun f h => by cases h
    · have hl : ∀ later, Spec.Unused n later → Spec.Unused n (later ++ [d]) := by
        intro later hu f hm
        rcases List.mem_append.mp hm with hm | hm
        · exact hu f hm
        · exact hd f (List.mem_singleton.mp hm).symm
      cases h with
      | builtin hm hu => exact .builtin hm (hl _ hu)
      | created h hu => exact .created (by rw [h, List.append_assoc, List.cons_append]) (hl _ hu)

theorem registry_owns (upper : String → String) (ds : List Deed) (n : String) (c : NamedCmd) :
    assoc (configure upper ds).1 n = some c ↔ Spec.Owns ds n c := by
  induction ds using snocRec with
  | nil => rw [owns_nil]; exact initial_assoc n c
  | snoc ds d ih =>
    rw [configure_snoc, owns_snoc]
    rcases run_registry upper d (configure upper ds) n with ⟨f, hd, h⟩ | ⟨hd, h⟩
    · rw [h]
      constructor
      · intro e; exact .inl ⟨f, hd, by cases e; rfl⟩
      · rintro (⟨f', e, rfl⟩ | ⟨hn, _⟩)
        · rw [hd] at e; cases e; rfl
        · exact absurd hd (hn f)
    · rw [h, ih]
      constructor
      · exact fun ho => .inr ⟨hd, ho⟩
      · rintro (⟨f', e, rfl⟩ | ⟨_, ho⟩)
        · exact absurd e (hd f')
        · exact ho

theorem getFunc_ok {reg : Registry} {upper : String → String} {w : String} {c : NamedCmd} :
    reg.getFunc upper w = .ok c ↔ assoc reg (normalizeName upper w) = some c := by
  unfold Registry.getFunc
  split
  · rename_i f h; rw [h]; simp
  · rename_i h; rw [h]; simp

/-- `GetFunc`, after any calls: it gives the command that has the name, and an error if no command has it. -/
theorem C89_found (upper : String → String) (ds : List Deed) {written n : String} (hw : Spec.Denotes upper written n) :
    (∀ c, (configure upper ds).1.getFunc upper written = .ok c ↔ Spec.Owns ds n c) ∧
    ((∃ e, (configure upper ds).1.getFunc upper written = .error e) ↔ ∀ c, ¬ Spec.Owns ds n c) := by
  have h1 : ∀ c, (configure upper ds).1.getFunc upper written = .ok c ↔ Spec.Owns ds n c := by
    intro c
    rw [getFunc_ok, denotes_iff.mp hw, registry_owns]
  refine ⟨h1, fun ⟨e, he⟩ c hc => ?_, fun h => ?_⟩
  · rw [(h1 c).mpr hc] at he; cases he
  · cases hg : (configure upper ds).1.getFunc upper written with
    | ok c => exact absurd ((h1 c).mp hg) (h c)
    | error e => exact ⟨e, rfl⟩

theorem owns_go {ds : List Deed} {n : String} {c : NamedCmd} (h : Spec.Owns ds n c) : ∃ f, c = .go n f := by
  cases h
  · exact ⟨_, rfl⟩
  · exact ⟨_, rfl⟩

/-- What `GetFunc` gives has the name that was asked for. -/
theorem C89_string (upper : String → String) (ds : List Deed) {written n : String} {c : NamedCmd}
    (hw : Spec.Denotes upper written n) (h : (configure upper ds).1.getFunc upper written = .ok c) :
    c.string = n.toUTF8.toList := by
  obtain ⟨f, rfl⟩ := owns_go (((C89_found upper ds hw).1 c).mp h)
  rfl

theorem byteArray_loop (a : ByteArray) (i : Nat) (r : List UInt8) :
    ByteArray.toList.loop a i r = r.reverse ++ a.data.toList.drop i := by
  fun_induction ByteArray.toList.loop a i r with
  | case1 i r h ih =>
    rw [ih, List.reverse_cons, List.append_assoc]
    congr 1
    have h2 : i < a.data.toList.length := by simpa using h
    have h3 : a.get! i = a.data.toList[i] := by
      show a.data[i]! = _
      have h4 : i < a.data.size := by simpa using h2
      rw [getElem!_pos a.data i h4]
      simp
    rw [List.drop_eq_getElem_cons h2, h3]; rfl
  | case2 i r h =>
    rw [List.drop_eq_nil_of_le (by simpa using h), List.append_nil]

theorem byteArray_toList (a : ByteArray) : a.toList = a.data.toList := by
  unfold ByteArray.toList
  rw [byteArray_loop]; rfl

theorem b_inj {s t : String} (h : s.toUTF8.toList = t.toUTF8.toList) : s = t := by
  rw [byteArray_toList, byteArray_toList] at h
  exact String.toByteArray_inj.mp (ByteArray.ext (Array.toList_inj.mp h))

theorem underscored_mem {l m : List Char} (h : Spec.Underscored l m) {d : Char} (hd : d ∈ m) :
    d = '_' ∨ (d ≠ '-' ∧ d ∈ l) := by
  induction h with
  | nil => cases hd
  | hyphen _ ih =>
    rcases List.mem_cons.mp hd with rfl | hd
    · exact .inl rfl
    · exact (ih hd).imp id fun h => ⟨h.1, .tail _ h.2⟩
  | other hc _ ih =>
    rcases List.mem_cons.mp hd with rfl | hd
    · exact .inr ⟨hc, .head _⟩
    · exact (ih hd).imp id fun h => ⟨h.1, .tail _ h.2⟩

/-- A command created under a name with a small letter or `-` is found by no text whatever. -/
theorem C89_hidden {upper : String → String} (hu : Spec.Capitals upper) (ds : List Deed) {name : String}
    (hn : ∃ c ∈ name.toList, c = '-' ∨ ('a' ≤ c ∧ c ≤ 'z')) (written : String) (c : NamedCmd)
    (h : (configure upper ds).1.getFunc upper written = .ok c) : c.string ≠ name.toUTF8.toList := by
  intro e
  obtain ⟨n, hw⟩ : ∃ n, Spec.Denotes upper written n := ⟨_, denotes_iff.mpr rfl⟩
  rw [C89_string upper ds hw h] at e
  have e := b_inj e
  subst e
  obtain ⟨d, hd, hb⟩ := hn
  unfold Spec.Denotes at hw
  rcases underscored_mem hw hd with rfl | ⟨h1, h2⟩
  · revert hb; decide
  · rcases hb with hb | hb
    · exact h1 hb
    · exact hu _ _ h2 hb

/-! ## Which command a key has -/

theorem named_lookup_bind (km : NamedMap) (k k' : Bytes) (f : Option NamedCmd) :
    (km.bindKey k f).lookup k' = if k' = k then f else km.lookup k' := by
  cases f with
  | none =>
    cases km <;> by_cases h : k' = k <;> simp [NamedMap.lookup, NamedMap.bindKey, h]
  | some f =>
    cases km <;> by_cases h : k' = k <;> simp [NamedMap.lookup, NamedMap.bindKey, h]

theorem sends_iff {upper : String → String} {key : String} {code : Bytes} :
    Spec.Sends upper key code ↔ assoc nameToCode (normalizeName upper key) = some code := by
  constructor
  · rintro ⟨k, hk, hm⟩
    rw [denotes_iff.mp hk]
    exact assoc_of_mem nameToCode_nodup hm
  · intro h
    exact ⟨_, denotes_iff.mpr rfl, assoc_some h⟩

theorem named_bindKeyFunc (upper : String → String) (km : NamedMap) (key : String) (f : Option NamedCmd) (code : Bytes) :
    (Spec.Sends upper key code ∧ ∃ km', km.bindKeyFunc upper key f = .ok km' ∧ km'.lookup code = f) ∨
    (¬ Spec.Sends upper key code ∧ ((∃ e, km.bindKeyFunc upper key f = .error e) ∨
      ∃ km', km.bindKeyFunc upper key f = .ok km' ∧ km'.lookup code = km.lookup code)) := by
  rw [sends_iff]
  unfold NamedMap.bindKeyFunc
  cases h : assoc nameToCode (normalizeName upper key) with
  | none => exact .inr ⟨nofun, .inl ⟨_, rfl⟩⟩
  | some code' =>
    by_cases hc : code' = code
    · subst hc
      exact .inl ⟨rfl, _, rfl, by rw [named_lookup_bind, if_pos rfl]⟩
    · refine .inr ⟨fun e => hc (Option.some.inj e), .inr ⟨_, rfl, ?_⟩⟩
      rw [named_lookup_bind, if_neg (Ne.symm hc)]

theorem gives_run (upper : String → String) (ds : List Deed) (d : Deed) (code : Bytes) :
    Spec.Gives upper ds code d ((d.run upper (configure upper ds)).2.lookup code) ∨
    ((∀ r, ¬ Spec.Gives upper ds code d r) ∧
      (d.run upper (configure upper ds)).2.lookup code = (configure upper ds).2.lookup code) := by
  have ho := registry_owns upper ds
  generalize configure upper ds = p at ho
  obtain ⟨reg, km⟩ := p
  cases d with
  | create n f => exact .inr ⟨nofun, rfl⟩
  | bindKey k f =>
    show Spec.Gives upper ds code _ ((km.bindKey k f).lookup code) ∨ _ ∧ (km.bindKey k f).lookup code = _
    rw [named_lookup_bind]
    by_cases hk : code = k
    · subst hk; rw [if_pos rfl]; exact .inl .key
    · rw [if_neg hk]
      exact .inr ⟨fun r h => by cases h; exact hk rfl, rfl⟩
  | bindName key f =>
    unfold Deed.run
    dsimp only
    rcases named_bindKeyFunc upper km key f code with ⟨hs, km', h, hl⟩ | ⟨hs, ⟨e, h⟩ | ⟨km', h, hl⟩⟩
    · rw [h]; dsimp only; rw [hl]; exact .inl (.name hs)
    · rw [h]; exact .inr ⟨fun r hr => by cases hr; contradiction, rfl⟩
    · rw [h]; exact .inr ⟨fun r hr => by cases hr; contradiction, hl⟩
  | bindFound key name =>
    unfold Deed.run
    dsimp only
    cases hg : reg.getFunc upper name with
    | error e =>
      refine .inr ⟨fun r hr => ?_, rfl⟩
      cases hr with
      | found _ hd hc =>
        rw [getFunc_ok.mpr (denotes_iff.mp hd ▸ (ho _ _).mpr hc)] at hg
        cases hg
    | ok c =>
      have hc := (ho _ _).mp (getFunc_ok.mp hg)
      dsimp only
      rcases named_bindKeyFunc upper km key (some c) code with ⟨hs, km', h, hl⟩ | ⟨hs, ⟨e, h⟩ | ⟨km', h, hl⟩⟩
      · rw [h]; dsimp only; rw [hl]; exact .inl (.found hs (denotes_iff.mpr rfl) hc)
      · rw [h]; exact .inr ⟨fun r hr => by cases hr; contradiction, rfl⟩
      · rw [h]; exact .inr ⟨fun r hr => by cases hr; contradiction, hl⟩
  | bindSymbol key name =>
    unfold Deed.run NamedMap.bindKeySymbol
    dsimp only
    cases hg : reg.getFunc upper key with
    | error e =>
      refine .inr ⟨fun r hr => ?_, rfl⟩
      cases hr with
      | symbol _ hd hc =>
        rw [getFunc_ok.mpr (denotes_iff.mp hd ▸ (ho _ _).mpr hc)] at hg
        cases hg
    | ok c =>
      have hc := (ho _ _).mp (getFunc_ok.mp hg)
      dsimp only
      rcases named_bindKeyFunc upper km key (some c) code with ⟨hs, km', h, hl⟩ | ⟨hs, ⟨e, h⟩ | ⟨km', h, hl⟩⟩
      · rw [h]; dsimp only; rw [hl]; exact .inl (.symbol hs (denotes_iff.mpr rfl) hc)
      · rw [h]; exact .inr ⟨fun r hr => by cases hr; contradiction, rfl⟩
      · rw [h]; exact .inr ⟨fun r hr => by cases hr; contradiction, hl⟩

theorem leaves_snoc {upper : String → String} {past later : List Deed} {d : Deed} {code : Bytes}
    (h : Spec.Leaves upper past later code) (hd : ∀ r, ¬ Spec.Gives upper (past ++ later) code d r) :
    Spec.Leaves upper past (later ++ [d]) code := by
  intro a e z he r
  rcases snoc_split he with ⟨_, rfl, rfl⟩ | ⟨l, rfl, rfl⟩
  · exact hd r
  · exact h a e l rfl r

theorem leaves_init {upper : String → String} {past later : List Deed} {d : Deed} {code : Bytes}
    (h : Spec.Leaves upper past (later ++ [d]) code) :
    Spec.Leaves upper past later code ∧ ∀ r, ¬ Spec.Gives upper (past ++ later) code d r :=
  ⟨fun a e z he r => h a e (z ++ [d]) (by rw [he, List.append_assoc, List.cons_append]) r,
    fun r => h later d [] rfl r⟩

theorem holds_snoc (upper : String → String) (ds : List Deed) (d : Deed) (code : Bytes) (r : Option NamedCmd) :
    Spec.Holds upper (ds ++ [d]) code r ↔
      Spec.Gives upper ds code d r ∨ ((∀ r', ¬ Spec.Gives upper ds code d r') ∧ Spec.Holds upper ds code r) := by
  constructor
  · intro h
    cases h with
    | never h => exact .inr ⟨(leaves_init h).2, .never (leaves_init h).1⟩
    | last he hg hl =>
      rcases snoc_split he with ⟨rfl, rfl, rfl⟩ | ⟨l, rfl, rfl⟩
      · exact .inl hg
      · refine .inr ⟨fun r' h' => ?_, .last rfl hg (leaves_init hl).1⟩
        refine (leaves_init hl).2 r' ?_
        rwa [List.append_assoc, List.singleton_append]
  · rintro (h | ⟨hd, h⟩)
    · exact .last rfl h fun a e z he => by simp at he
    · cases h with
      | never h => exact .never (leaves_snoc h hd)
      | last he hg hl =>
        subst he
        refine .last (by rw [List.append_assoc, List.cons_append]) hg (leaves_snoc hl fun r' h' => hd r' ?_)
        rwa [List.append_assoc, List.singleton_append] at h'

theorem owns_unique {ds : List Deed} {n : String} {c c' : NamedCmd} (h : Spec.Owns ds n c) (h' : Spec.Owns ds n c') :
    c = c' := by
  have h := (registry_owns id ds n c).mpr h
  rw [(registry_owns id ds n c').mpr h'] at h
  exact (Option.some.inj h).symm

theorem denotes_unique {upper : String → String} {w n m : String} (h : Spec.Denotes upper w n) (h' : Spec.Denotes upper w m) :
    n = m := (denotes_iff.mp h).symm.trans (denotes_iff.mp h')

theorem gives_unique {upper : String → String} {past : List Deed} {code : Bytes} {d : Deed} {r r' : Option NamedCmd}
    (h : Spec.Gives upper past code d r) (h' : Spec.Gives upper past code d r') : r = r' := by
  cases h with
  | key => cases h'; rfl
  | name _ => cases h'; rfl
  | found _ hd ho =>
    cases h' with
    | found _ hd' ho' =>
      cases denotes_unique hd hd'
      rw [owns_unique ho ho']
  | symbol _ hd ho =>
    cases h' with
    | symbol _ hd' ho' =>
      cases denotes_unique hd hd'
      rw [owns_unique ho ho']

theorem holds_iff (upper : String → String) (ds : List Deed) (code : Bytes) (r : Option NamedCmd) :
    Spec.Holds upper ds code r ↔ (configure upper ds).2.lookup code = r := by
  induction ds using snocRec generalizing r with
  | nil =>
    constructor
    · intro h
      cases h with
      | never _ => rfl
      | last he _ _ => simp at he
    · intro h
      have : r = none := h.symm
      subst this
      exact .never fun a e z he => by simp at he
  | snoc ds d ih =>
    rw [holds_snoc, configure_snoc]
    rcases gives_run upper ds d code with h | ⟨hn, h⟩
    · constructor
      · rintro (h' | ⟨hn, _⟩)
        · exact gives_unique h h'
        · exact absurd h (hn _)
      · rintro rfl; exact .inl h
    · rw [h, ← ih]
      constructor
      · rintro (h' | ⟨_, h'⟩)
        · exact absurd h' (hn r)
        · exact h'
      · exact fun h' => .inr ⟨hn, h'⟩

theorem plain_lookup (km : NamedMap) (k : Bytes) : KeyMap.lookup km.plain k = (km.lookup k).map NamedCmd.cmd := by
  cases km <;> rfl

theorem does_cmd (c : NamedCmd) : Spec.CarriesOut c c.cmd := by
  cases c with
  | go n f =>
    cases f with
    | none => exact .nothing fun _ => rfl
    | some f => exact .named
  | selfInserter k => exact .typed
  | anonymous f => exact .own
  | completion P => exact .completing

/-- What a command does is determined. -/
theorem does_unique {c : NamedCmd} {f g : Cmd} (h : Spec.CarriesOut c f) (h' : Spec.CarriesOut c g) : f = g := by
  cases h with
  | named => cases h'; rfl
  | nothing h1 =>
    cases h' with
    | nothing h2 => rw [show _ = _ from funext fun s => (h1 s).trans (h2 s).symm]
  | typed => cases h'; rfl
  | own => cases h'; rfl
  | completing => cases h'; rfl

/-- After any sequence of calls, every key either has a command, the one the last call concerning it gave it,
and pressing it runs that command, or has none of its own, and pressing it does what it does in an editor
without own bindings. -/
theorem C89_partial (upper : String → String) (ds : List Deed) (E : Env)
    (hE : E.keyMap = (configure upper ds).2.plain) {s : St} {code : Bytes} {rest : List Ev}
    (hi : s.input = .key code :: rest) :
    (∃ r, Spec.Holds upper ds code r) ∧
    (∀ c, Spec.Holds upper ds code (some c) → ∃ f, Spec.CarriesOut c f ∧
      step E s = execCmd E f { s.emit .await with input := rest }) ∧
    (Spec.Holds upper ds code none →
      step E s = execCmd E (lookupCommand { E with keyMap := none } code) { s.emit .await with input := rest }) := by
  refine ⟨⟨_, (holds_iff upper ds code _).mpr rfl⟩, fun c h => ⟨c.cmd, does_cmd c, ?_⟩, fun h => ?_⟩
  · rw [step_key hi]
    unfold lookupCommand
    rw [hE, plain_lookup, (holds_iff upper ds code _).mp h]
    rfl
  · rw [step_key hi]
    unfold lookupCommand
    rw [hE, plain_lookup, (holds_iff upper ds code _).mp h]
    rfl

/-- A command created under a name in capitals is found by every spelling of it and can be put on a
key by it, until another one takes the name; pressing the key runs its function. -/
theorem C89_own {upper : String → String} (hu : Spec.AsciiUpper upper) {past later : List Deed} {n name key k : String}
    {f : Cmd} {code : Bytes} (hn : Spec.Spelling name n) (hl : Spec.Unused n later) (hk : Spec.Spelling key k)
    (hc : (k, code) ∈ Spec.keyCodes) (hm : k ∉ Spec.misnamed) (E : Env)
    (hE : E.keyMap = (configure upper (past ++ .create n (some f) :: (later ++ [.bindFound key name]))).2.plain)
    {s : St} {rest : List Ev} (hi : s.input = .key code :: rest) :
    step E s = execCmd E f { s.emit .await with input := rest } := by
  have h := (C89_partial upper _ E hE hi).2.1 (.go n (some f))
    (.last (past := past ++ .create n (some f) :: later) (later := []) (by simp)
      (.found ⟨k, spelling_denotes hu hk, keyCodes_sound _ hc hm⟩ (spelling_denotes hu hn) (.created rfl hl))
      fun a e z he => by simp at he)
  obtain ⟨f', hf, h⟩ := h
  cases hf
  exact h

/-- `BindKeySymbol(km, key, name)`, after any calls: it binds something exactly when there is a key with the
name `key` and a command created *under the name of the key*, and binds that command, whatever `name` is. -/
theorem C89_symbol (upper : String → String) (ds : List Deed) (km : NamedMap) (key name : String) :
    (∃ km', km.bindKeySymbol (configure upper ds).1 upper key name = .ok km') ↔
      ∃ k code past f later, Spec.Denotes upper key k ∧ (k, code) ∈ nameToCode ∧
        ds = past ++ .create k f :: later ∧ Spec.Unused k later ∧
        ∀ q, (match km.bindKeySymbol (configure upper ds).1 upper key name with
          | .ok km' => km'.lookup q
          | .error _ => none) = if q = code then some (.go k f) else km.lookup q := by
  have ho := registry_owns upper ds (normalizeName upper key)
  unfold NamedMap.bindKeySymbol
  constructor
  · rintro ⟨km', h⟩
    cases hg : (configure upper ds).1.getFunc upper key with
    | error e => rw [hg] at h; cases h
    | ok c =>
      rw [hg] at h
      dsimp only at h
      have hc := (ho c).mp (getFunc_ok.mp hg)
      unfold NamedMap.bindKeyFunc at h ⊢
      cases ha : assoc nameToCode (normalizeName upper key) with
      | none => rw [ha] at h; cases h
      | some code =>
        have hin := assoc_some ha
        cases hc with
        | builtin hm _ =>
          exact absurd (List.mem_map.mpr ⟨_, hin, rfl⟩) (names_disjoint _ (List.mem_map.mpr ⟨_, hm, rfl⟩))
        | created he hu =>
          refine ⟨_, code, _, _, _, denotes_iff.mpr rfl, hin, he, hu, fun q => ?_⟩
          exact named_lookup_bind km code q _
  · rintro ⟨k, code, past, f, later, hd, hm, he, hu, _⟩
    rw [denotes_iff.mp hd] at ho
    have hg : (configure upper ds).1.getFunc upper key = .ok (.go k f) :=
      getFunc_ok.mpr (by rw [denotes_iff.mp hd]; exact (ho _).mpr (.created he hu))
    rw [hg]
    dsimp only
    unfold NamedMap.bindKeyFunc
    rw [denotes_iff.mp hd, assoc_of_mem nameToCode_nodup hm]
    exact ⟨_, rfl⟩

/-! ## The names of the commands of the editor -/

theorem assoc_mem {l : List (Bytes × α)} {k : Bytes} {a : α} (h : assoc l k = some a) : (k, a) ∈ l := by
  unfold assoc at h
  obtain ⟨p, hp, rfl⟩ := Option.map_eq_some_iff.mp h
  have h1 := List.find?_some hp
  have h2 := List.mem_of_find?_eq_some hp
  have h1 : p.1 = k := by simpa using h1
  rw [← h1]
  exact h2

theorem global_known : ∀ k ∈ globalTable.map (·.1), ∃ p ∈ Spec.documented ++ Spec.otherKeys, (p.2, k) ∈ Spec.keyCodes := by
  decide +kernel

/-- The named key map holds the commands of `GlobalKeyMap`. -/
theorem named_plain : namedGlobalMap.plain = defaultGlobalKeyMap := by
  unfold namedGlobalMap defaultGlobalKeyMap NamedMap.plain
  simp only [Option.map_some, Option.some.injEq]
  funext k
  cases h : assoc globalTable k with
  | none => rfl
  | some c =>
    have hm := assoc_mem h
    simp only [globalTable, List.mem_cons, List.not_mem_nil, or_false, Prod.mk.injEq] at hm
    rcases hm with ⟨-, rfl⟩ | ⟨-, rfl⟩ | ⟨-, rfl⟩ | ⟨-, rfl⟩ | ⟨-, rfl⟩ | ⟨-, rfl⟩ | ⟨-, rfl⟩ | ⟨-, rfl⟩ | ⟨-, rfl⟩ |
      ⟨-, rfl⟩ | ⟨-, rfl⟩ | ⟨-, rfl⟩ | ⟨-, rfl⟩ | ⟨-, rfl⟩ | ⟨-, rfl⟩ | ⟨-, rfl⟩ | ⟨-, rfl⟩ | ⟨-, rfl⟩ | ⟨-, rfl⟩ |
      ⟨-, rfl⟩ | ⟨-, rfl⟩ | ⟨-, rfl⟩ | ⟨-, rfl⟩ | ⟨-, rfl⟩ | ⟨-, rfl⟩ | ⟨-, rfl⟩ | ⟨-, rfl⟩ | ⟨-, rfl⟩ | ⟨-, rfl⟩ |
      ⟨-, rfl⟩ | ⟨-, rfl⟩ | ⟨-, rfl⟩ | ⟨-, rfl⟩ | ⟨-, rfl⟩ | ⟨-, rfl⟩ | ⟨-, rfl⟩ <;> rfl

/-- What `LookupCommand` gives for a key carries out what `lookupCommand` says. -/
theorem C89_lookup (own global : NamedMap) (E : Env) (h1 : E.keyMap = own.plain) (h2 : E.globalKeyMap = global.plain)
    (k : Bytes) : Spec.CarriesOut (namedCommand own global k) (lookupCommand E k) := by
  rw [show lookupCommand E k = (namedCommand own global k).cmd from ?_]
  · exact does_cmd _
  symm
  unfold namedCommand lookupCommand
  rw [h1, h2, plain_lookup, plain_lookup]
  cases own.lookup k with
  | some f => rfl
  | none =>
    cases global.lookup k with
    | some f => rfl
    | none => rfl

/-- `LookupCommand(key).String()` in an editor without own bindings: the documented name of the command for the keys
with a documented command (but for the two of `C48_refuted`), and for other keys of a terminal the name of
`Spec.otherKeys` or else the bytes of the key. -/
theorem C89_documented :
    (∀ p ∈ Spec.documented, p.1 ≠ "UNDO" → p.1 ≠ "ISEARCH_BACKWARD" → ∀ code, (p.2, code) ∈ Spec.keyCodes →
      (namedCommand none namedGlobalMap code).string = p.1.toUTF8.toList) ∧
    (∀ p ∈ Spec.otherKeys, ∀ code, (p.2, code) ∈ Spec.keyCodes →
      (namedCommand none namedGlobalMap code).string = p.1.toUTF8.toList) ∧
    (∀ code, (∀ p ∈ Spec.documented ++ Spec.otherKeys, (p.2, code) ∉ Spec.keyCodes) →
      (namedCommand none namedGlobalMap code).string = code) := by
  refine ⟨?_, ?_, ?_⟩
  · intro p hp h1 h2 code hc
    exact (by decide +kernel : ∀ p ∈ Spec.documented, p.1 ≠ "UNDO" → p.1 ≠ "ISEARCH_BACKWARD" → ∀ q ∈ Spec.keyCodes,
      q.1 = p.2 → (namedCommand none namedGlobalMap q.2).string = b p.1) p hp h1 h2 _ hc rfl
  · intro p hp code hc
    exact (by decide +kernel : ∀ p ∈ Spec.otherKeys, ∀ q ∈ Spec.keyCodes,
      q.1 = p.2 → (namedCommand none namedGlobalMap q.2).string = b p.1) p hp _ hc rfl
  · intro code h
    have : assoc globalTable code = none := by
      cases ha : assoc globalTable code with
      | none => rfl
      | some c =>
        obtain ⟨p, hp, hc⟩ := global_known code (List.mem_map.mpr ⟨_, assoc_mem ha, rfl⟩)
        exact absurd hc (h p hp)
    unfold namedCommand NamedMap.lookup namedGlobalMap
    simp only [this]
    rfl

/-! ## What is not so -/

/-- The claim "`GetFunc(c.String())` gives the command `c`" is false: a command created under the name
`my-own` is not found by it. -/
theorem C89_string_refuted {upper : String → String} (hu : Spec.AsciiUpper upper) (f : Option Cmd) :
    (newGoCommand initialRegistry "my-own" f).2.string = "my-own".toUTF8.toList ∧
    ∃ e, (newGoCommand initialRegistry "my-own" f).1.getFunc upper "my-own" = .error e := by
  refine ⟨rfl, ?_⟩
  have hs : Spec.Spelling "my-own" "MY_OWN" := by unfold Spec.Spelling; decide +kernel
  refine ((C89_found upper [.create "my-own" f] (spelling_denotes hu hs)).2).mpr fun c h => ?_
  rcases (owns_snoc [] _ _ _).mp h with ⟨f', e, _⟩ | ⟨_, h⟩
  · injection e with e _
    exact absurd e (by decide +kernel)
  · obtain ⟨g, hm, _⟩ := (owns_nil _ _).mp h
    exact absurd (List.mem_map.mpr ⟨_, hm, rfl⟩) (by decide +kernel : "MY_OWN" ∉ nameToFunc.map (·.1))

/-- Nor do names tell commands apart: of two commands created under one name, `GetFunc` gives the second
for the name both report.  The built-in ones can be replaced so as well; keys bound before keep the old one. -/
theorem C89_name_refuted {upper : String → String} (hu : Spec.AsciiUpper upper) (g : Option Cmd) :
    (configure upper [.create "YANK" g]).1.getFunc upper "yank" = .ok (.go "YANK" g) ∧
    (NamedCmd.go "YANK" (some .yank)).string = (NamedCmd.go "YANK" g).string ∧
    Spec.Holds upper [.bindFound "c-t" "yank", .create "YANK" g] [0x14] (some (.go "YANK" (some .yank))) := by
  have hs : Spec.Spelling "yank" "YANK" := by unfold Spec.Spelling; decide +kernel
  have hk : Spec.Spelling "c-t" "C_T" := by unfold Spec.Spelling; decide +kernel
  refine ⟨?_, rfl, ?_⟩
  · exact ((C89_found upper _ (spelling_denotes hu hs)).1 _).mpr (.created (past := []) (later := []) rfl nofun)
  · refine .last (past := []) (later := [.create "YANK" g]) rfl ?_ ?_
    · exact .found ⟨_, spelling_denotes hu hk, by decide +kernel⟩ (spelling_denotes hu hs)
        (.builtin (by simp [nameToFunc]) nofun)
    · intro a d z he r h
      rcases snoc_split (ds := []) he with ⟨_, _, rfl⟩ | ⟨l, _, e⟩
      · cases h
      · simp at e

/-- The claim "`BindKeySymbol(km, key, name)` gives the key the command `name`" is false: after
`NewGoCommand("C_T", f)`, `BindKeySymbol(km, "c-t", "yank")` puts `f` on Ctrl-T. -/
theorem C89_symbol_refuted {upper : String → String} (hu : Spec.AsciiUpper upper) (f : Cmd) (E : Env)
    (hE : E.keyMap = (configure upper [.create "C_T" (some f), .bindSymbol "c-t" "yank"]).2.plain)
    {s : St} {rest : List Ev} (hi : s.input = .key [0x14] :: rest) :
    step E s = execCmd E f { s.emit .await with input := rest } := by
  have hk : Spec.Spelling "c-t" "C_T" := by unfold Spec.Spelling; decide +kernel
  have h := (C89_partial upper _ E hE hi).2.1 (.go "C_T" (some f))
    (.last (past := [.create "C_T" (some f)]) (later := []) rfl
      (.symbol ⟨_, spelling_denotes hu hk, by decide +kernel⟩ (spelling_denotes hu hk)
        (.created (past := []) (later := []) rfl nofun))
      fun a e z he => by simp at he)
  obtain ⟨f', hf, h⟩ := h
  cases hf
  exact h

/-! ## Cases -/

/-- A small program: it creates `EXIT`, puts it on F5 by name, puts `YANK` on Ctrl-T, takes Ctrl-T away again, and
creates another `EXIT`. -/
def Spec.program (f g : Option Cmd) : List Deed :=
  [.create "EXIT" f, .bindFound "f5" "exit", .bindFound "c-t" "yank", .bindName "C_T" none, .create "EXIT" g]

/-- `strings.ToUpper` on ASCII text. -/
def Spec.asciiUpper (s : String) : String := String.ofList (s.toList.map Char.toUpper)

theorem asciiUpper_ok : Spec.AsciiUpper Spec.asciiUpper := fun _ _ => rfl

/-- F5 has the first `EXIT`, Ctrl-T nothing, and the name is that of the second. -/
example (f g : Option Cmd) :
    Spec.Holds Spec.asciiUpper (Spec.program f g) [0x1B, 0x5B, 0x31, 0x35, 0x7E] (some (.go "EXIT" f)) ∧
    Spec.Holds Spec.asciiUpper (Spec.program f g) [0x14] none ∧
    Spec.Owns (Spec.program f g) "EXIT" (.go "EXIT" g) := by
  refine ⟨(holds_iff _ _ _ _).mpr rfl, (holds_iff _ _ _ _).mpr rfl, ?_⟩
  exact (registry_owns Spec.asciiUpper _ _ _).mp rfl

/-- The hypotheses of `C89_own`. -/
example : Spec.Spelling "exit" "EXIT" ∧ Spec.Unused "EXIT" [.create "QUIT" none] ∧ Spec.Spelling "f5" "F5" ∧
    ("F5", [0x1B, 0x5B, 0x31, 0x35, 0x7E]) ∈ Spec.keyCodes ∧ "F5" ∉ Spec.misnamed := by
  refine ⟨?_, ?_, ?_, by decide +kernel, by decide +kernel⟩
  · unfold Spec.Spelling; decide +kernel
  · intro f h
    have h := List.mem_singleton.mp h
    injection h with h _
    exact absurd h (by decide +kernel)
  · unfold Spec.Spelling; decide +kernel

/-- The hypothesis of `C89_hidden`: the capitals of ASCII text have no small letter. -/
example : Spec.Capitals Spec.asciiUpper := by
  intro s c hc
  unfold Spec.asciiUpper at hc
  rw [String.toList_ofList] at hc
  obtain ⟨d, _, rfl⟩ := List.mem_map.mp hc
  unfold Char.toUpper
  split
  · rename_i h
    rintro ⟨h1, _⟩
    simp [Char.le_def, UInt32.le_iff_toNat_le] at h h1
    omega
  · rename_i h
    rintro ⟨h1, h2⟩
    simp [Char.le_def, UInt32.le_iff_toNat_le] at h h1 h2
    omega

/-- `LookupCommand("\x12").String()` is the name of the search, that of an unbound key is the key. -/
example : (namedCommand none namedGlobalMap [0x12]).string = b "ISEARCH_BACKWARD" ∧
    (namedCommand none namedGlobalMap [0x61]).string = [0x61] := by decide +kernel

end Readline
