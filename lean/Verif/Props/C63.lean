import Verif.Spec.Names
import Verif.Props.C62
import Verif.Proof.Word
import Verif.Proof.Printed
/-!
# C63: what is shown for a character tells which one it is

`C63`: every character but the tab is shown in one of the four ways of `Spec.Depicts`, on every
terminal.  `C63_unique`: these cannot be confused with each other, so what is shown tells the
character.  (For the line as a whole this is not so: `C63_refuted`, `C63_refuted_tab`.)
-/
namespace Readline
open Spec

/-- No two characters are shown in the same way. -/
theorem C63_unique {s : Bytes} {c d : Char} (h : Depicts s c) (h' : Depicts s d) : c = d := by
  have inj : ∀ {a b : List Char} {s : Bytes}, s = utf8 a → s = utf8 b → a = b :=
    fun h h' => utf8_injective (h.symm.trans h')
  have long : ∀ {x y z : Char} {ds : List Char}, x :: (ds ++ [y]) = [z] → False := by
    intro x y z ds h
    have := congrArg List.length h
    simp at this
  generalize hs : s = t at h'
  cases h with
  | itself h1 =>
    cases h' with
    | itself h2 => have := inj rfl hs; simpa using this
    | padded h2 => have := inj rfl hs; simp at this
    | caret h2 h3 => have := inj rfl hs; simp at this
    | number h2 => have := inj rfl hs; exact (long this.symm).elim
  | padded h1 =>
    cases h' with
    | itself h2 => have := inj rfl hs; simp at this
    | padded h2 => have := inj rfl hs; simpa using this
    | caret h2 h3 => have := inj rfl hs; simp at this
    | number h2 =>
      have := inj rfl hs
      simp only [List.cons.injEq] at this
      exact absurd this.1 (by decide)
  | @caret _ x h1 h3 =>
    cases h' with
    | itself h2 => have := inj rfl hs; simp at this
    | padded h2 => have := inj rfl hs; simp at this
    | @caret _ y h2 h4 =>
      have := inj rfl hs
      have : x = y := by simpa using this
      subst this
      exact Char.toNat_inj.mp (by omega)
    | number h2 =>
      have := inj rfl hs
      simp only [List.cons.injEq] at this
      exact absurd this.1 (by decide)
  | @number _ ds h1 =>
    cases h' with
    | itself h2 => have := inj rfl hs; exact (long this).elim
    | padded h2 =>
      have := inj rfl hs
      simp only [List.cons.injEq] at this
      exact absurd this.1 (by decide)
    | caret h2 h4 =>
      have := inj rfl hs
      simp only [List.cons.injEq] at this
      exact absurd this.1 (by decide)
    | @number _ ds' h2 =>
      have := inj rfl hs
      have : ds = ds' := by simpa using this
      subst this
      rw [h1] at h2
      exact Char.toNat_inj.mp (Option.some.inj h2)

theorem hexDigit_char (d : Nat) (h : d < 16) :
    ∃ c : Char, utf8 [c] = [hexDigit d] ∧ digitValue c = some d := by
  have : ∀ d : Fin 16, utf8 ["0123456789ABCDEF".toList.getD d.1 ' '] = [hexDigit d] ∧
      digitValue ("0123456789ABCDEF".toList.getD d.1 ' ') = some d.1 := by decide +kernel
  exact ⟨_, this ⟨d, h⟩⟩

theorem hexUpper_number (n : Nat) : ∃ ds, utf8 ds = hexUpper n ∧ hexNumber ds = some n := by
  induction n using Nat.strongRecOn with
  | _ n ih =>
    rw [hexUpper.eq_def]
    by_cases h : n < 16
    · rw [if_pos h]
      obtain ⟨c, h1, h2⟩ := hexDigit_char n h
      refine ⟨[c], h1, ?_⟩
      simp [hexNumber, h2]
    · rw [if_neg h]
      obtain ⟨ds, h1, h2⟩ := ih (n / 16) (by omega)
      obtain ⟨c, h3, h4⟩ := hexDigit_char (n % 16) (by omega)
      refine ⟨ds ++ [c], by rw [utf8_append, h1, h3], ?_⟩
      unfold hexNumber at h2 ⊢
      rw [List.foldlM_append, h2]
      simp [h4]
      omega

/-- What is shown for a character shows that character. -/
theorem C63 (C : Cfg) (c : Char) (pos : Int) (h : c ≠ '\t') :
    Depicts ((rune2moji C c.toNat pos).print C) c := by
  have h9 : c.toNat ≠ 9 := fun hx => h (Char.toNat_inj.mp hx)
  have hu : utf8 [c] = encodeRune c.toNat := (utf8_single c)
  unfold rune2moji
  rw [if_neg h9]
  by_cases h1 : c.toNat < 0x20
  · rw [if_pos h1]
    have : ∀ n : Fin 32, Moji.print C (.ctrl n.1) = utf8 ['^', Char.ofNat (n.1 + 0x40)] ∧
        (Char.ofNat (n.1 + 0x40)).toNat = n.1 + 0x40 := by
      intro n
      have : ∀ n : Fin 32, [0x5E, 0x41 + (UInt8.ofNat n.1 - 1)] = utf8 ['^', Char.ofNat (n.1 + 0x40)] ∧
        (Char.ofNat (n.1 + 0x40)).toNat = n.1 + 0x40 := by decide +kernel
      exact this n
    have := this ⟨c.toNat, h1⟩
    rw [this.1]
    exact .caret h1 this.2
  · rw [if_neg h1]
    have hge : 0x20 ≤ c.toNat := by omega
    have itself : Depicts (encodeRune c.toNat) c := hu ▸ .itself hge
    have padded : ∀ C, Depicts (Moji.print C (.flag c.toNat)) c := by
      intro C
      have : Moji.print C (.flag c.toNat) = utf8 [' ', ' ', '\x1b', '7', '\x08', '\x08', c, '\x1b', '8'] := by
        show saveCursorAfterN 2 ++ encodeRune c.toNat ++ restoreCursor = _
        rw [← hu]
        have a1 : saveCursorAfterN 2 = utf8 [' ', ' ', '\x1b', '7', '\x08', '\x08'] := by decide +kernel
        have a2 : restoreCursor = utf8 ['\x1b', '8'] := by decide +kernel
        rw [a1, a2, ← utf8_append, ← utf8_append]
        rfl
      rw [this]
      exact .padded hge
    have number : Depicts (Moji.print C (.esc c.toNat)) c := by
      obtain ⟨ds, e1, e2⟩ := hexUpper_number c.toNat
      have : Moji.print C (.esc c.toNat) = utf8 ('<' :: (ds ++ ['>'])) := by
        show [0x3C] ++ hexUpper c.toNat ++ [0x3E] = _
        rw [← e1]
        have a1 : ([0x3C] : Bytes) = utf8 ['<'] := by decide
        have a2 : ([0x3E] : Bytes) = utf8 ['>'] := by decide
        rw [a1, a2, ← utf8_append, ← utf8_append]
        rfl
      rw [this]
      exact .number e2
    split
    · exact padded C
    · split
      · exact number
      · split
        · exact itself
        · split
          · exact padded C
          · split
            · exact padded C
            · exact itself

/-- A unit that is one character, as it stands in a line. -/
theorem built_names {C : Cfg} {m n : Moji} (h : Built C n) (e : m.norm = n) {c : Char} (hw : m.write = utf8 [c])
    (hc : c ≠ '\t') : Depicts (m.print C) c := by
  have hn : n.write = utf8 [c] := by rw [← e, Moji.norm_write]; exact hw
  have two : ∀ {k : Moji} {x : List Rune}, Built C k → (∀ r ∈ x, isScalar r = true) → x ≠ [] →
      k.write ++ encodeRunes x = utf8 [c] → False := by
    intro k x hk hx hne h
    obtain ⟨R, h1, h2, -⟩ := hk.runes
    have hR : R ≠ [] := by
      rintro rfl
      exact hk.write_ne_nil h2
    rw [h2, ← encodeRunes_append] at h
    have := congrArg runesOf h
    rw [runesOf_encodeRunes (fun r hr => (List.mem_append.mp hr).elim (h1 r) (hx r)), runesOf_utf8] at this
    have := congrArg List.length this
    have a := List.length_pos_iff.mpr hR
    have b := List.length_pos_iff.mpr hne
    simp at this
    omega
  cases h with
  | @base r hr =>
    have hrc : r = c.toNat := by
      rw [Moji.norm_write, rune2moji_write] at hn
      have := congrArg runesOf hn
      rw [runesOf_utf8, ← List.append_nil (encodeRune r), runesOf_encode_append hr, runesOf_nil] at this
      simpa using this
    subst hrc
    have key := C63 C c 0 hc
    have h9 : c.toNat ≠ 9 := fun hx => hc (Char.toNat_inj.mp hx)
    have hsame : m = rune2moji C c.toNat 0 := by
      revert e
      unfold rune2moji
      rw [if_neg h9]
      repeat' split
      all_goals (cases m <;> simp [Moji.norm])
    rw [hsame]
    exact key
  | @zwj k n hz hk hs =>
    refine (two (x := [0x200D, n]) hk ?_ (by simp) ?_).elim
    · intro r hr
      simp only [List.mem_cons, List.not_mem_nil, or_false] at hr
      rcases hr with rfl | rfl
      · decide
      · exact hs
    · rw [← hn]
      simp [Moji.write, encodeRunes, zwjRune, List.append_assoc]
  | @vari k r hk hr _ _ =>
    refine (two (x := [r]) hk (by simpa using hr) (by simp) ?_).elim
    rw [← hn]
    simp [Moji.write, encodeRunes]
  | @modi k r hk hr _ _ _ =>
    refine (two (x := [r]) hk (by simpa using hr) (by simp) ?_).elim
    rw [← hn]
    simp [Moji.write, encodeRunes]

/-- In every session: whatever unit is printed, if it is one character other than a tab, what is printed
shows it. -/
theorem C63_session {E : Env} {w : World} (hb : BuiltinKeys E) (hk : WholeKeys E w) :
    (∀ s, Reachable E w s → ∃ ts, s.out = w.out ++ ts ∧
      ∀ m c, .glyph m ∈ ts → m.write = utf8 [c] → c ≠ '\t' → Depicts (m.print E.cfg) c) ∧
    ∀ s r, readLine E w = .ok (s, r) → ∃ ts, s.out = w.out ++ ts ∧
      ∀ m c, .glyph m ∈ ts → m.write = utf8 [c] → c ≠ '\t' → Depicts (m.print E.cfg) c := by
  have hs : Sources (fun _ => True) E w :=
    ⟨fun _ _ => trivial, fun _ _ _ _ => trivial, fun _ _ _ _ => trivial, fun _ _ _ _ => .inr (.inr fun _ _ => trivial),
      fun _ _ _ _ _ _ _ => trivial, fun _ _ _ _ => trivial, fun _ _ _ _ _ _ _ _ _ _ => trivial, fun _ _ _ => trivial,
      fun _ _ => ⟨trivial, trivial⟩, hk⟩
  have hx : Searching (fun _ => True) E w := fun _ _ _ => ⟨fun _ _ => trivial, fun _ _ => Or.inr trivial⟩
  have hQ : Allows (fun _ => True) E (fun t => ∀ m c, t = .glyph m → m.write = utf8 [c] → c ≠ '\t' →
      Depicts (m.print E.cfg) c) := by
    refine { toPermits := ?perm, lineFeed := ?_ }
    case' perm => constructor
    case glyph =>
      intro m hm _ m' c e
      cases e
      exact built_names hm rfl
    all_goals intros
    all_goals contradiction
  refine ⟨fun s h => ?_, fun s r h => ?_⟩
  · obtain ⟨ts, h1, h2⟩ := (session_written hb hs hx hQ.toPermits h).out
    exact ⟨ts, h1, fun m c hm => h2 _ hm m c rfl⟩
  · obtain ⟨ts, h1, h2⟩ := (result_written hb hs hx hQ h).out
    exact ⟨ts, h1, fun m c hm => h2 _ hm m c rfl⟩

namespace Example

/-- Not vacuous: all four ways occur. -/
example : (["a", "\x01", "\x7f", "𝐀"].map fun s => (stringToMoji plain (b s)).flatMap (Moji.print plain)) =
    [b "a", b "^A", b "\x7f", b "  \x1b7\x08\x08𝐀\x1b8"] ∧
    (stringToMoji { plain with width := fun _ => 0 } (b "\x7f")).flatMap (Moji.print plain) = b "<7F>" := by
  decide +kernel

end Example

/-- Two lines can look the same: a control character and the two characters that show it. -/
theorem C63_refuted : ∃ s t : Bytes, s ≠ t ∧
    (stringToMoji Example.plain s).flatMap (Moji.print Example.plain) =
      (stringToMoji Example.plain t).flatMap (Moji.print Example.plain) :=
  ⟨b "\x01", b "^A", by decide +kernel, by decide +kernel⟩

/-- So can a tab and blanks. -/
theorem C63_refuted_tab : ∃ s t : Bytes, s ≠ t ∧
    (stringToMoji Example.plain s).flatMap (Moji.print Example.plain) =
      (stringToMoji Example.plain t).flatMap (Moji.print Example.plain) ∧ (9 : UInt8) ∈ s ∧ ∀ x ∈ t, x = 0x20 :=
  ⟨b "\t", b "    ", by decide +kernel⟩

end Readline
