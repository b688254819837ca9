import Verif.Proof.Segment
/-!
# C05: splitting a string into editing units loses nothing

`utf8 cs` is the UTF-8 text of the characters `cs` by Lean's own encoder.  The text of the
units is the concatenation of what each unit's `WriteTo` writes.

The full statement (`∀ cs, text = utf8 cs`) is false when the terminal joins with U+200D:
see `C05_counterexample_zwnj` and `C05_counterexample_trailing`.  `C05_exact` says what the
text is in all cases, `C05_iff` exactly when it is the input, and `C05_partial` gives the
simple sufficient condition.
-/
namespace Readline
open Spec

/-- What `StringToMoji` keeps, for every valid string and every terminal. -/
theorem C05_exact (C : Cfg) (cs : List Char) :
    (stringToMoji C (utf8 cs)).flatMap Moji.write =
      encodeRunes (rejoin C.zwjOk .fresh (cs.map Char.toNat)) := by
  have h := stringToMoji_text C (utf8 cs)
  have hr : runesOf (utf8 cs) = cs.map Char.toNat := by
    rw [utf8_eq_encodeRunes]
    exact runesOf_encodeRunes (by simp only [List.mem_map]; rintro r ⟨c, _, rfl⟩; exact char_isScalar c)
  rw [hr] at h
  exact h

theorem rejoin_isScalar (z : Bool) (m : JoinMode) (rs : List Nat)
    (h : ∀ r ∈ rs, isScalar r = true) : ∀ r ∈ rejoin z m rs, isScalar r = true := by
  induction rs generalizing m with
  | nil => cases m <;> simp [rejoin] <;> decide
  | cons a rs ih =>
    have ha : isScalar a = true := h a (by simp)
    have hrs : ∀ r ∈ rs, isScalar r = true := fun r hr => h r (by simp [hr])
    have h1 := ih .started hrs
    have h2 := ih .joining hrs
    cases m with
    | fresh => intro r hr; rw [rejoin] at hr; rcases List.mem_cons.mp hr with rfl | hr
               · exact ha
               · exact h1 r hr
    | joining => intro r hr; rw [rejoin] at hr; rcases List.mem_cons.mp hr with rfl | hr
                 · exact ha
                 · exact h1 r hr
    | started =>
      intro r hr
      rw [rejoin] at hr
      split at hr
      · rcases List.mem_cons.mp hr with rfl | hr
        · decide
        · exact h2 r hr
      · rcases List.mem_cons.mp hr with rfl | hr
        · exact ha
        · exact h1 r hr

/-- Exactly when nothing is lost or changed. -/
theorem C05_iff (C : Cfg) (cs : List Char) :
    (stringToMoji C (utf8 cs)).flatMap Moji.write = utf8 cs ↔
      rejoin C.zwjOk .fresh (cs.map Char.toNat) = cs.map Char.toNat := by
  have hs : ∀ r ∈ cs.map Char.toNat, isScalar r = true := by
    simp only [List.mem_map]; rintro r ⟨c, _, rfl⟩; exact char_isScalar c
  rw [C05_exact, utf8_eq_encodeRunes]
  constructor
  · intro h
    have h2 := congrArg runesOf h
    rwa [runesOf_encodeRunes (rejoin_isScalar _ _ _ hs), runesOf_encodeRunes hs] at h2
  · intro h
    rw [h]

/-- Nothing is lost if the terminal does not join with U+200D, or the text has no U+200C and
does not end in U+200D.  (Missing from the full claim: texts with U+200C or a final U+200D on
a joining terminal, where it is false.) -/
theorem C05_partial (C : Cfg) (cs : List Char)
    (h : C.zwjOk = false ∨ ('‌' ∉ cs ∧ cs.getLast? ≠ some '‍')) :
    (stringToMoji C (utf8 cs)).flatMap Moji.write = utf8 cs := by
  rw [C05_iff]
  rcases h with h | ⟨h1, h2⟩
  · rw [h]; exact rejoin_off _ (by simp) _
  · apply rejoin_id
    · intro hm
      obtain ⟨c, hc, he⟩ := List.mem_map.mp hm
      have : c = '‌' := Char.toNat_inj.mp he
      exact h1 (this ▸ hc)
    · rw [List.getLast?_map]
      intro hm
      obtain ⟨c, hc, he⟩ := Option.map_eq_some_iff.mp hm
      have : c = '‍' := Char.toNat_inj.mp he
      exact h2 (this ▸ hc)
    · simp

/-- A terminal with every feature on. -/
def cfgAll : Cfg where
  surrogateOk := true
  zwjOk := true
  varOk := true
  modOk := true
  ambWide := false
  width := fun _ => 1
  zwjWidth := defaultZwjWidth
  varSel := fun r => r == 0xFE0F

/-- A plain terminal (every feature off). -/
def cfgPlain : Cfg where
  surrogateOk := false
  zwjOk := false
  varOk := false
  modOk := false
  ambWide := false
  width := fun _ => 1
  zwjWidth := defaultZwjWidth
  varSel := fun r => r == 0xFE0F

/-- U+200C comes back as U+200D. -/
theorem C05_counterexample_zwnj :
    (stringToMoji cfgAll (utf8 ['a', '‌', 'b'])).flatMap Moji.write ≠ utf8 ['a', '‌', 'b'] := by
  rw [Ne, C05_iff]; decide

/-- A final U+200D gets a U+FFFD appended. -/
theorem C05_counterexample_trailing :
    (stringToMoji cfgAll (utf8 ['a', '‍'])).flatMap Moji.write ≠ utf8 ['a', '‍'] := by
  rw [Ne, C05_iff]; decide

/-- A malformed byte does not come back either (why the claim is about valid text). -/
theorem C05_counterexample_malformed :
    (stringToMoji cfgPlain [0xFF]).flatMap Moji.write ≠ [0xFF] := by
  have h : (stringToMoji cfgPlain [0xFF]).flatMap Moji.write = _ := stringToMoji_text cfgPlain [0xFF]
  rw [h]; decide +kernel

/-- Non-vacuity: a joined family, a tab and a control character on a joining terminal. -/
example : (stringToMoji cfgAll (utf8 ['👩', '‍', '👧', '\t', '\x01'])).flatMap Moji.write
    = utf8 ['👩', '‍', '👧', '\t', '\x01'] :=
  C05_partial _ _ (Or.inr (by decide))

/-- Those five characters are three units. -/
example : stringToMoji cfgAll (utf8 ['👩', '‍', '👧', '\t', '\x01']) =
    [.zwj (.raw 0x1F469) (.raw 0x1F467), .tab 1, .ctrl 1] := by decide +kernel

end Readline
