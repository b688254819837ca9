import Verif.Model.GetKey
import Verif.Proof.Utf8
import Verif.Spec.Keys
/-!
# C22: reading keys from the terminal loses, duplicates and reorders nothing
-/
namespace Readline
open Spec

/-- The runes of a piece of the stream. -/
def evRunes (l : List TtyEv) : List Rune :=
  l.filterMap (fun e => match e with | .rune r _ _ => some r | .err _ => none)

/-- A piece of the stream without errors. -/
def AllRunes (l : List TtyEv) : Prop := ∀ e ∈ l, ∃ r raw keys, e = .rune r raw keys

theorem utf16Decode_eq (a b : Nat) : utf16Decode a b = pair a b := by
  unfold utf16Decode pair
  split
  · omega
  · rfl

theorem codePoints_cons_some {hi lo : Nat} {rs : List Nat} (h : lo ≠ 0) :
    codePoints (some hi) (lo :: rs) = pair hi lo :: codePoints none rs := by
  rw [codePoints]; exact fun e => h e

theorem codePoints_cons_none {r : Nat} {rs : List Nat} (h : r ≠ 0) :
    codePoints none (r :: rs) = if Surrogate r then codePoints (some r) rs else r :: codePoints none rs := by
  rw [codePoints]; exact fun e => h e

theorem waiting_cons_some {hi lo : Nat} {rs : List Nat} (h : lo ≠ 0) :
    waiting (some hi) (lo :: rs) = waiting none rs := by
  rw [waiting]; exact fun e => h e

theorem waiting_cons_none {r : Nat} {rs : List Nat} (h : r ≠ 0) :
    waiting none (r :: rs) = if Surrogate r then waiting (some r) rs else waiting none rs := by
  rw [waiting]; exact fun e => h e

theorem codePoints_append (p : Option Nat) (a c : List Nat) :
    codePoints p (a ++ c) = codePoints p a ++ codePoints (waiting p a) c := by
  induction a generalizing p with
  | nil => simp [codePoints, waiting]
  | cons r a ih =>
    by_cases h0 : r = 0
    · subst h0
      rw [List.cons_append, codePoints, codePoints, waiting, ih]
    · cases p with
      | some hi =>
        rw [List.cons_append, codePoints_cons_some h0, codePoints_cons_some h0, waiting_cons_some h0, ih]
        rfl
      | none =>
        rw [List.cons_append, codePoints_cons_none h0, codePoints_cons_none h0, waiting_cons_none h0]
        split
        · exact ih _
        · rw [ih]; rfl

theorem isSurrogate_iff {r : Nat} : isSurrogate r = true ↔ Surrogate r := by
  simp [isSurrogate, Surrogate]

/-- The waiting surrogate as the model keeps it (0 = none). -/
def surOf : Option Nat → Nat
  | none => 0
  | some r => r

theorem getRawKeyLoop_ok (s : List TtyEv) (buffer : Bytes) (escape : Bool) (p : Option Nat)
    (hp : ∀ r, p = some r → 0 < r) (k : Bytes) (more : Bool) (rest : List TtyEv)
    (h : getRawKeyLoop s buffer escape (surOf p) = .ok (k, more) rest) :
    ∃ pre, s = pre ++ rest ∧ pre ≠ [] ∧ AllRunes pre ∧ k ≠ [] ∧
      k = buffer ++ encodeRunes (codePoints p (evRunes pre)) ∧ waiting p (evRunes pre) = none := by
  induction s generalizing buffer escape p with
  | nil => simp [getRawKeyLoop] at h
  | cons e s ih =>
    cases e with
    | err e => simp [getRawKeyLoop] at h
    | rune r raw keys =>
      rw [getRawKeyLoop] at h
      by_cases h0 : r = 0
      · rw [if_pos h0] at h
        obtain ⟨pre, rfl, h1, h2, h3, h4, h5⟩ := ih _ _ p hp h
        refine ⟨.rune r raw keys :: pre, rfl, by simp, ?_, h3, ?_, ?_⟩
        · intro x hx
          rcases List.mem_cons.mp hx with rfl | hx
          · exact ⟨_, _, _, rfl⟩
          · exact h2 x hx
        · subst h0; exact h4
        · subst h0; exact h5
      · rw [if_neg h0] at h
        by_cases hs : ¬ surOf p > 0 ∧ isSurrogate r = true
        · rw [if_pos hs] at h
          have hpn : p = none := by
            cases p with
            | none => rfl
            | some r => exact absurd (hp r rfl) hs.1
          subst hpn
          have hr := isSurrogate_iff.mp hs.2
          have : 0 < r := by unfold Surrogate at hr; omega
          obtain ⟨pre, rfl, h1, h2, h3, h4, h5⟩ := ih _ _ (some r) (by intro r' e; cases e; exact this) h
          refine ⟨.rune r raw keys :: pre, rfl, by simp, ?_, h3, ?_, ?_⟩
          · intro x hx
            rcases List.mem_cons.mp hx with rfl | hx
            · exact ⟨_, _, _, rfl⟩
            · exact h2 x hx
          · show k = buffer ++ encodeRunes (codePoints none (r :: evRunes pre))
            rw [codePoints_cons_none h0, if_pos hr]; exact h4
          · show waiting none (r :: evRunes pre) = none
            rw [waiting_cons_none h0, if_pos hr]; exact h5
        · rw [if_neg hs] at h
          -- the code point completed by `r`
          have key : ∃ c, (if surOf p > 0 then utf16Decode (surOf p) r else r) = c ∧
              (∀ l, codePoints p (r :: l) = c :: codePoints none l) ∧
              (∀ l, waiting p (r :: l) = waiting none l) := by
            cases p with
            | some hi =>
              have := hp hi rfl
              refine ⟨pair hi r, by simp [surOf, this, utf16Decode_eq], ?_, ?_⟩
              · intro l; exact codePoints_cons_some h0
              · intro l; exact waiting_cons_some h0
            | none =>
              have hr : ¬ Surrogate r := by
                intro hr; apply hs; exact ⟨by simp [surOf], isSurrogate_iff.mpr hr⟩
              refine ⟨r, by simp [surOf], ?_, ?_⟩
              · intro l; rw [codePoints_cons_none h0, if_neg hr]
              · intro l; rw [waiting_cons_none h0, if_neg hr]
          obtain ⟨c, hc, hcp, hw⟩ := key
          rw [hc] at h
          simp only at h
          split at h
          · injection h with h1 h2
            injection h1 with h1 h1'
            subst h1 h2
            refine ⟨[.rune r raw keys], rfl, by simp, ?_, ?_, ?_, ?_⟩
            · intro x hx
              rw [List.mem_singleton] at hx
              exact ⟨_, _, _, hx⟩
            · simp [encodeRune_ne_nil]
            · show _ = buffer ++ encodeRunes (codePoints p [r])
              rw [hcp]; simp [codePoints, encodeRunes]
            · show waiting p [r] = none
              rw [hw]; rfl
          · obtain ⟨pre, rfl, h1, h2, h3, h4, h5⟩ := ih _ _ none (by simp) h
            refine ⟨.rune r raw keys :: pre, rfl, by simp, ?_, h3, ?_, ?_⟩
            · intro x hx
              rcases List.mem_cons.mp hx with rfl | hx
              · exact ⟨_, _, _, rfl⟩
              · exact h2 x hx
            · show k = buffer ++ encodeRunes (codePoints p (r :: evRunes pre))
              rw [hcp, encodeRunes_cons, ← List.append_assoc]; exact h4
            · show waiting p (r :: evRunes pre) = none
              rw [hw]; exact h5

/-- One key: its bytes are exactly the text of the runes read for it, and no surrogate is
left over. -/
theorem C22_getRawKey (s rest : List TtyEv) (k : Bytes) (more : Bool)
    (h : getRawKey s = .ok (k, more) rest) :
    ∃ pre, s = pre ++ rest ∧ pre ≠ [] ∧ AllRunes pre ∧ k ≠ [] ∧
      k = encodeRunes (codePoints none (evRunes pre)) ∧ waiting none (evRunes pre) = none := by
  obtain ⟨pre, h1, h2, h3, h4, h5, h6⟩ := getRawKeyLoop_ok s [] false none (by simp) k more rest h
  exact ⟨pre, h1, h2, h3, h4, by simpa using h5, h6⟩

theorem evRunes_append (a c : List TtyEv) : evRunes (a ++ c) = evRunes a ++ evRunes c := by
  simp [evRunes]

theorem waiting_append (p : Option Nat) (a c : List Nat) :
    waiting p (a ++ c) = waiting (waiting p a) c := by
  induction a generalizing p with
  | nil => rfl
  | cons r a ih =>
    by_cases h0 : r = 0
    · subst h0
      rw [List.cons_append, waiting, waiting, ih]
    · cases p with
      | some hi => rw [List.cons_append, waiting_cons_some h0, waiting_cons_some h0, ih]
      | none =>
        rw [List.cons_append, waiting_cons_none h0, waiting_cons_none h0]
        split <;> exact ih _

theorem getKeysLoop_ok (fuel : Nat) (s rest : List TtyEv) (acc ks : List Bytes)
    (h : getKeysLoop fuel s acc = some (.ok ks rest)) :
    ∃ pre new, s = pre ++ rest ∧ AllRunes pre ∧ new ≠ [] ∧ (∀ k ∈ new, k ≠ []) ∧ ks = acc ++ new ∧
      new.flatten = encodeRunes (codePoints none (evRunes pre)) ∧ waiting none (evRunes pre) = none := by
  induction fuel generalizing s acc with
  | zero => simp [getKeysLoop] at h
  | succ n ih =>
    rw [getKeysLoop] at h
    split at h
    · simp at h
    · rename_i k more rest' hk
      obtain ⟨pre, rfl, h2, h3, h4, h5, h6⟩ := C22_getRawKey _ _ _ _ hk
      split at h
      · simp at h
        obtain ⟨rfl, rfl⟩ := h
        exact ⟨pre, [k], rfl, h3, by simp, by simpa using h4, rfl, by simpa using h5, h6⟩
      · obtain ⟨pre2, new, rfl, g1, g2, g3, g4, g5, g6⟩ := ih _ _ h
        refine ⟨pre ++ pre2, k :: new, by simp, ?_, by simp, ?_, by simp [g4], ?_, ?_⟩
        · intro e he
          rcases List.mem_append.mp he with he | he
          · exact h3 e he
          · exact g1 e he
        · intro x hx
          rcases List.mem_cons.mp hx with rfl | hx
          · exact h4
          · exact g3 x hx
        · rw [evRunes_append, codePoints_append, h6, encodeRunes_append, ← h5, ← g5]; rfl
        · rw [evRunes_append, waiting_append, h6]; exact g6

theorem getRawKeyLoop_shorter (s : List TtyEv) (buffer : Bytes) (escape : Bool) (sur : Nat)
    (x : Bytes × Bool) (rest : List TtyEv) (h : getRawKeyLoop s buffer escape sur = .ok x rest) :
    rest.length < s.length := by
  induction s generalizing buffer escape sur with
  | nil => simp [getRawKeyLoop] at h
  | cons e s ih =>
    cases e with
    | err e => simp [getRawKeyLoop] at h
    | rune r raw keys =>
      rw [getRawKeyLoop] at h
      simp only [List.length_cons]
      split at h
      · have := ih _ _ _ h; omega
      · split at h
        · have := ih _ _ _ h; omega
        · generalize (if sur > 0 then utf16Decode sur r else r) = r' at h
          simp only at h
          split at h
          · injection h with _ h2; subst h2; omega
          · have := ih _ _ _ h; omega

theorem getKeysLoop_fuel (fuel : Nat) (s : List TtyEv) (acc : List Bytes) (h : s.length < fuel) :
    getKeysLoop fuel s acc ≠ none := by
  induction fuel generalizing s acc with
  | zero => omega
  | succ n ih =>
    rw [getKeysLoop]
    split
    · simp
    · rename_i k more rest hk
      have := getRawKeyLoop_shorter _ _ _ _ _ _ hk
      split
      · simp
      · exact ih _ _ (by omega)

/-- `GetKeys` always returns. -/
theorem C22_getKeys_total (s : List TtyEv) : getKeys s ≠ none := getKeysLoop_fuel _ _ _ (by omega)

/-- A burst: the keys are non-empty and their concatenation is exactly the text of the runes
read. -/
theorem C22_getKeys (s rest : List TtyEv) (ks : List Bytes) (h : getKeys s = some (.ok ks rest)) :
    ∃ pre, s = pre ++ rest ∧ AllRunes pre ∧ ks ≠ [] ∧ (∀ k ∈ ks, k ≠ []) ∧
      ks.flatten = encodeRunes (codePoints none (evRunes pre)) ∧ waiting none (evRunes pre) = none := by
  obtain ⟨pre, new, h1, h2, h3, h4, h5, h6, h7⟩ := getKeysLoop_ok _ _ _ _ _ h
  simp at h5
  subst h5
  exact ⟨pre, h1, h2, h3, h4, h6, h7⟩

/-- `n` calls of `(*_Tty).GetKey`; `none` if one of them fails. -/
def Tty8.run : Nat → Tty8 → Option (List Bytes × Tty8)
  | 0, t => some ([], t)
  | n + 1, t =>
    match t.getKey with
    | some (.ok k, t') => (Tty8.run n t').map (fun p => (k :: p.1, p.2))
    | _ => none

/-- `_Tty.GetKey` called any number of times without error: the keys delivered, followed by
the ones queued, are the queued ones of the start followed by the text of the runes read. -/
theorem C22_tty8 (n : Nat) (t t' : Tty8) (ks : List Bytes) (h : Tty8.run n t = some (ks, t')) :
    ∃ pre, t.stream = pre ++ t'.stream ∧ AllRunes pre ∧
      ks.flatten ++ t'.buf.flatten = t.buf.flatten ++ encodeRunes (codePoints none (evRunes pre)) ∧
      waiting none (evRunes pre) = none := by
  induction n generalizing t ks with
  | zero =>
    simp [Tty8.run] at h
    obtain ⟨rfl, rfl⟩ := h
    exact ⟨[], rfl, by simp [AllRunes], by simp [codePoints, evRunes, encodeRunes], rfl⟩
  | succ n ih =>
    rw [Tty8.run] at h
    split at h
    · rename_i k t1 hk
      obtain ⟨⟨ks1, t2⟩, h1, h2⟩ := Option.map_eq_some_iff.mp h
      simp at h2
      obtain ⟨rfl, rfl⟩ := h2
      obtain ⟨pre, g1, g2, g3, g4⟩ := ih _ _ h1
      unfold Tty8.getKey at hk
      split at hk
      · rename_i k' rest hb
        simp at hk
        obtain ⟨rfl, rfl⟩ := hk
        refine ⟨pre, g1, g2, ?_, g4⟩
        rw [hb]
        simp only [List.flatten_cons, List.append_assoc]
        rw [g3]
      · rename_i hb
        split at hk
        · cases hk
        · simp at hk
        · rename_i rest hg
          exact absurd rfl (C22_getKeys _ _ _ hg).choose_spec.2.2.1
        · rename_i k' ks' rest hg
          simp at hk
          obtain ⟨rfl, rfl⟩ := hk
          obtain ⟨p0, f1, f2, f3, f4, f5, f6⟩ := C22_getKeys _ _ _ hg
          refine ⟨p0 ++ pre, ?_, ?_, ?_, ?_⟩
          · rw [f1]; simp only at g1; rw [g1, List.append_assoc]
          · intro e he
            rcases List.mem_append.mp he with he | he
            · exact f2 e he
            · exact g2 e he
          · rw [hb, evRunes_append, codePoints_append, f6, encodeRunes_append, ← f5]
            simp only [List.flatten_cons, List.append_assoc, List.flatten_nil, List.nil_append]
            rw [g3]
          · rw [evRunes_append, waiting_append, f6]; exact g4
    · cases h

/-- Text typed as runes or UTF-16 units (any mixture) is read as that text. -/
theorem C22_text (cs : List (Char × Bool)) (h : ∀ c ∈ cs, c.1 ≠ '\x00') :
    codePoints none (cs.flatMap (fun c => if c.2 then utf16 c.1 else [c.1.toNat])) =
      cs.map (fun c => c.1.toNat) := by
  induction cs with
  | nil => rfl
  | cons c cs ih =>
    have ih := ih (fun x hx => h x (by simp [hx]))
    have hv := isScalar_iff.mp (char_isScalar c.1)
    have h0 : c.1.toNat ≠ 0 := by
      intro e
      exact h c (by simp) (Char.toNat_inj.mp e)
    have hns : ¬ Surrogate c.1.toNat := by unfold Surrogate; omega
    have hsingle : codePoints none ([c.1.toNat] ++ cs.flatMap (fun c => if c.2 then utf16 c.1 else [c.1.toNat]))
        = c.1.toNat :: cs.map (fun c => c.1.toNat) := by
      rw [List.singleton_append, codePoints_cons_none h0, if_neg hns, ih]
    rw [List.flatMap_cons, List.map_cons]
    by_cases h2 : c.2 = true
    · rw [if_pos h2]
      by_cases hb : c.1.toNat < 0x10000
      · rw [show utf16 c.1 = [c.1.toNat] from if_pos hb]; exact hsingle
      · rw [show utf16 c.1 = [0xD800 + (c.1.toNat - 0x10000) / 1024,
          0xDC00 + (c.1.toNat - 0x10000) % 1024] from if_neg hb]
        rw [List.cons_append, List.singleton_append, codePoints_cons_none (by omega), if_pos (by unfold Surrogate; omega),
          codePoints_cons_some (by omega), ih]
        congr 1
        unfold pair
        rw [if_pos (by omega)]
        omega
    · rw [if_neg h2]; exact hsingle

/-- An ordinary rune is a key of its own, at once. -/
theorem C22_plain_key (r : Nat) (raw keys : Bool) (rest : List TtyEv) (h0 : r ≠ 0)
    (h1 : ¬ Surrogate r) (h2 : r ≠ 0x1B) :
    getRawKey (.rune r raw keys :: rest) = .ok (encodeRune r, keys) rest := by
  unfold getRawKey
  rw [getRawKeyLoop, if_neg h0, if_neg (by rw [isSurrogate_iff]; exact fun h => h1 h.2)]
  simp [h2, encodeRune_ne_nil]

theorem burst_loop (mid : List (Nat × Bool)) (l : Nat) (keys : Bool) (rest : List TtyEv)
    (buffer : Bytes) (p : Option Nat) (hp : ∀ r, p = some r → 0 < r) (hl : l ≠ 0)
    (hw : waiting p (mid.map (·.1) ++ [l]) = none) :
    getRawKeyLoop (mid.map (fun m => .rune m.1 true m.2) ++ .rune l false keys :: rest)
      buffer true (surOf p) =
      .ok (buffer ++ encodeRunes (codePoints p (mid.map (·.1) ++ [l])), keys) rest := by
  induction mid generalizing buffer p with
  | nil =>
    simp only [List.map_nil, List.nil_append] at hw ⊢
    rw [getRawKeyLoop, if_neg hl]
    cases p with
    | some hi =>
      have := hp hi rfl
      rw [if_neg (by simp [surOf]; omega), codePoints_cons_some hl]
      simp [surOf, this, utf16Decode_eq, encodeRune_ne_nil, codePoints, encodeRunes]
    | none =>
      rw [waiting_cons_none hl] at hw
      by_cases hs : Surrogate l
      · rw [if_pos hs] at hw; simp [waiting] at hw
      · rw [if_neg (by rw [isSurrogate_iff]; exact fun h => hs h.2), codePoints_cons_none hl, if_neg hs]
        simp [surOf, encodeRune_ne_nil, codePoints, encodeRunes]
  | cons m mid ih =>
    obtain ⟨r, mk⟩ := m
    simp only [List.map_cons, List.cons_append] at hw ⊢
    rw [getRawKeyLoop]
    by_cases h0 : r = 0
    · subst h0
      rw [if_pos rfl, codePoints]
      rw [waiting] at hw
      exact ih buffer p hp hw
    · rw [if_neg h0]
      cases p with
      | some hi =>
        have := hp hi rfl
        rw [waiting_cons_some h0] at hw
        rw [if_neg (by simp [surOf]; omega), codePoints_cons_some h0]
        have ih := ih (buffer ++ encodeRune (pair hi r)) none (by simp) hw
        simp only [surOf] at ih ⊢
        simp [this, utf16Decode_eq, encodeRunes_cons] at ih ⊢
        exact ih
      | none =>
        rw [waiting_cons_none h0] at hw
        by_cases hs : Surrogate r
        · rw [if_pos hs] at hw
          rw [if_pos ⟨by simp [surOf], isSurrogate_iff.mpr hs⟩, codePoints_cons_none h0, if_pos hs]
          exact ih buffer (some r) (by intro x e; cases e; omega) hw
        · rw [if_neg hs] at hw
          rw [if_neg (by rw [isSurrogate_iff]; exact fun h => hs h.2), codePoints_cons_none h0, if_neg hs]
          have ih := ih (buffer ++ encodeRune r) none (by simp) hw
          simp only [surOf] at ih ⊢
          simp [encodeRunes_cons] at ih ⊢
          exact ih

/-- An escape sequence delivered in one burst (more input is buffered after every rune but the
last) is one key. -/
theorem C22_escape_burst (k0 : Bool) (mid : List (Nat × Bool)) (l : Nat) (keys : Bool)
    (rest : List TtyEv) (hl : l ≠ 0) (hw : waiting none (mid.map (·.1) ++ [l]) = none) :
    getRawKey (.rune 0x1B true k0 :: mid.map (fun m => .rune m.1 true m.2) ++ .rune l false keys :: rest) =
      .ok (0x1B :: encodeRunes (codePoints none (mid.map (·.1) ++ [l])), keys) rest := by
  unfold getRawKey
  rw [List.cons_append, getRawKeyLoop, if_neg (by simp), if_neg (by rw [isSurrogate_iff]; simp [Surrogate])]
  have h := burst_loop mid l keys rest [0x1B] none (by simp) hl hw
  simp only [surOf] at h
  simp [encodeRune] at h ⊢
  exact h

/-- Non-vacuity: `a`, then Up (`ESC [ A`) in the same burst, then an emoji as a surrogate pair. -/
example : getKeys [.rune 97 true true, .rune 0x1B true true, .rune 0x5B true true, .rune 0x41 false true,
      .rune 0xD83D true true, .rune 0 true true, .rune 0xDE00 false false, .rune 98 false false]
    = some (.ok [[97], [0x1B, 0x5B, 0x41], utf8 ['😀']] [.rune 98 false false]) := by decide
example : waiting none ([(0x5B, true)].map (·.1) ++ [0x41]) = none := by decide
example : (Tty8.run 3 ⟨[], [.rune 97 true true, .rune 98 false false, .rune 99 false false]⟩).map (·.1) =
    some [[97], [98], [99]] := by decide

/-- A lone surrogate swallows the next rune. -/
theorem C22_lone_surrogate :
    getRawKey [.rune 0xD83D false false, .rune 97 false false] = .ok (encodeRune 0xFFFD, false) [] := by
  decide

/-- When a read error ends a burst, the keys read before it in that burst are lost. -/
theorem C22_error_loses_burst :
    (Tty8.getKey ⟨[], [.rune 97 true true, .err [1], .rune 98 false false]⟩) =
      some (.error [1], ⟨[], [.rune 98 false false]⟩) := by rfl

end Readline
