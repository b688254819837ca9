import Verif.Props.C21
/-!
# C36: key and command names

`BindKeyFunc` and `GetFunc` do what their names say (`C36_bindKeyFunc`, `C36_getFunc`).
`BindKeySymbol` never binds anything (`C36_bindKeySymbol_refuted`): it looks the *key* up in
the table of commands, and no key name is a command name.
-/
namespace Readline

/-- `upper` behaves like `strings.ToUpper` on ASCII text. -/
def Spec.AsciiUpper (upper : String → String) : Prop :=
  ∀ s : String, (∀ c ∈ s.toList, c.toNat < 128) → upper s = String.ofList (s.toList.map Char.toUpper)

/-- How a user may write the name `name`: any mixture of cases, `-` for `_`. -/
def Spec.Spelling (written name : String) : Prop :=
  (∀ c ∈ written.toList, c.toNat < 128) ∧
  written.toList.map (fun c => if c = '-' then '_' else c.toUpper) = name.toList

theorem normalize_spelling {upper : String → String} (hu : Spec.AsciiUpper upper)
    {written name : String} (h : Spec.Spelling written name) : normalizeName upper written = name := by
  unfold normalizeName
  rw [hu written h.1, String.toList_ofList, List.map_map]
  have : written.toList.map ((fun c => if c = '-' then '_' else c) ∘ Char.toUpper) =
      written.toList.map (fun c => if c = '-' then '_' else c.toUpper) := by
    apply List.map_congr_left
    intro c _
    simp only [Function.comp]
    by_cases hc : c = '-'
    · subst hc; decide
    · rw [if_neg hc]
      have : c.toUpper ≠ '-' := by
        unfold Char.toUpper
        split
        · rename_i h2
          intro e
          have e2 := congrArg (fun c => c.val.toNat) e
          simp [UInt32.le_iff_toNat_le] at h2
          simp at e2
          omega
        · exact hc
      rw [if_neg this]
  rw [this, h.2, String.ofList_toList]

theorem assoc_of_mem [DecidableEq κ] {l : List (κ × α)} (hn : (l.map (·.1)).Nodup) {k : κ} {a : α}
    (h : (k, a) ∈ l) : assoc l k = some a := by
  induction l with
  | nil => simp at h
  | cons p l ih =>
    simp only [List.map_cons, List.nodup_cons] at hn
    unfold assoc at ih ⊢
    by_cases hk : p.1 = k
    · rcases List.mem_cons.mp h with h | h
      · subst h; simp
      · exact absurd (List.mem_map.mpr ⟨(k, a), h, rfl⟩) (hk ▸ hn.1)
    · rw [List.find?_cons_of_neg (by simpa using hk)]
      rcases List.mem_cons.mp h with h | h
      · subst h; simp at hk
      · exact ih hn.2 h

theorem assoc_some [DecidableEq κ] {l : List (κ × α)} {k : κ} {a : α} (h : assoc l k = some a) :
    (k, a) ∈ l := by
  unfold assoc at h
  obtain ⟨p, hp, rfl⟩ := Option.map_eq_some_iff.mp h
  have h1 := List.find?_some hp
  have h2 := List.mem_of_find?_eq_some hp
  simp at h1
  subst h1
  exact h2

/-- Key names are distinct, and so are command names. -/
theorem nameToCode_nodup : (nameToCode.map (·.1)).Nodup := by decide +kernel
theorem nameToFunc_nodup : (nameToFunc.map (·.1)).Nodup := by decide +kernel

/-- Every spelling of a key name of the table binds its code, and only it. -/
theorem C36_bindKeyFunc {upper : String → String} (hu : Spec.AsciiUpper upper) (km : KeyMap)
    (f : Option Cmd) {written name : String} {code : Bytes} (hs : Spec.Spelling written name)
    (hm : (name, code) ∈ nameToCode) :
    ∃ km', bindKeyFunc upper km written f = .ok km' ∧
      ∀ k, KeyMap.lookup km' k = if k = code then f else KeyMap.lookup km k := by
  refine ⟨_, ?_, fun k => lookup_bindKey km code k f⟩
  unfold bindKeyFunc
  rw [normalize_spelling hu hs, assoc_of_mem nameToCode_nodup hm]

/-- Whatever the name and `strings.ToUpper` are: either a code of the table is bound and
nothing else changes, or an error is returned (and then there is no new key map). -/
theorem C36_bindKeyFunc_all (upper : String → String) (km : KeyMap) (f : Option Cmd)
    (written : String) :
    (∃ name code km', (name, code) ∈ nameToCode ∧ bindKeyFunc upper km written f = .ok km' ∧
      ∀ k, KeyMap.lookup km' k = if k = code then f else KeyMap.lookup km k) ∨
    ((∀ code, (normalizeName upper written, code) ∉ nameToCode) ∧
      ∃ e, bindKeyFunc upper km written f = .error e) := by
  unfold bindKeyFunc
  cases h : assoc nameToCode (normalizeName upper written) with
  | some code =>
    left
    exact ⟨_, code, _, assoc_some h, rfl, fun k => lookup_bindKey km code k f⟩
  | none =>
    right
    refine ⟨fun code hm => ?_, _, rfl⟩
    rw [assoc_of_mem nameToCode_nodup hm] at h
    cases h

/-- `GetFunc` finds every built-in command under any spelling of its name. -/
theorem C36_getFunc {upper : String → String} (hu : Spec.AsciiUpper upper)
    {written name : String} {f : Cmd} (hs : Spec.Spelling written name)
    (hm : (name, f) ∈ nameToFunc) : getFunc nameToFunc upper written = .ok f := by
  unfold getFunc
  rw [normalize_spelling hu hs, assoc_of_mem nameToFunc_nodup hm]

theorem names_disjoint : ∀ n ∈ nameToFunc.map (·.1), n ∉ nameToCode.map (·.1) := by decide +kernel

/-- `BindKeySymbol` returns an error for every key, every function name and every key map:
the claim "it binds the key to the named command" is false. -/
theorem C36_bindKeySymbol_refuted (upper : String → String) (km : KeyMap) (key func : String) :
    ∃ e, bindKeySymbol nameToFunc upper km key func = .error e := by
  unfold bindKeySymbol getFunc bindKeyFunc
  cases h : assoc nameToFunc (normalizeName upper key) with
  | none => exact ⟨_, rfl⟩
  | some f =>
    have hm := assoc_some h
    cases h2 : assoc nameToCode (normalizeName upper key) with
    | none => exact ⟨_, rfl⟩
    | some c =>
      exact absurd (List.mem_map.mpr ⟨_, assoc_some h2, rfl⟩)
        (names_disjoint _ (List.mem_map.mpr ⟨_, hm, rfl⟩))

/-- Non-vacuity: `c-left` is a spelling of `C_LEFT`, `yank-with_Quote` of a command. -/
example : Spec.Spelling "c-left" "C_LEFT" := by
  unfold Spec.Spelling; decide +kernel
example : Spec.Spelling "yank-with_Quote" "YANK_WITH_QUOTE" := by
  unfold Spec.Spelling; decide +kernel
example : ("C_LEFT", [0x1B, 0x5B, 0x31, 0x3B, 0x35, 0x44]) ∈ nameToCode := by decide +kernel
example : ("YANK_WITH_QUOTE", Cmd.yankWithQuote) ∈ nameToFunc := by simp [nameToFunc]
example : Spec.AsciiUpper (fun s => String.ofList (s.toList.map Char.toUpper)) := fun _ _ => rfl

end Readline
