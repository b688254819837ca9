import Verif.Proof.Jam
import Verif.Proof.Carry
import Verif.Proof.Pending
import Verif.Props.C04
/-!
# C12: Backspace undoes typing

`C12_partial`: a typed character that does not attach to the one before it, and then Backspace,
leave the units and the cursor as they were.  `C12_waiting_partial` is the same for the states of
sessions in which a joiner was typed before and waits for the next character.

False for code points that attach to the character before (`C12_refuted`): Backspace takes that
character away, too, and after a join control even the one before that (`C12_attach`).  `C12_iff`: this happens
exactly for these characters.
-/
namespace Readline
open Spec

theorem segs_char (C : Cfg) (c : Char) : (segs C (utf8 [c])).length = 1 := by
  rw [segs_eq, runesOf_utf8]
  simp [segN]

/-- A character after a unit and a joiner is one unit with them. -/
theorem segs_waiting {C : Cfg} {m : Moji} (hm : Built C m) {z : Rune} (hz : isZeroWidthJoin C z = true)
    (c : Char) : (segs C (m.write ++ encodeRune z ++ utf8 [c])).length = 1 := by
  have hzs : isScalar z = true := by
    rcases (isZeroWidthJoin_iff.mp hz).2 with rfl | rfl <;> decide
  rw [segs_eq, List.append_assoc, hm.cut _ _ (Or.inl rfl), runesOf_encode_append hzs, runesOf_utf8]
  have hj : isJoiner C z = true := by simp [isJoiner, hz]
  simp [segN, hj, hz, mapHead]

theorem type_char {L : Logic} {e : Ed} {l r : List Moji} {c : Char} (h : e.At l r)
    (hj : l = [] ∨ ¬ Joins L.cfg c.toNat) :
    Ed.At (Ed.type L e (utf8 [c])) (l ++ segs L.cfg (e.pending ++ utf8 [c])) r := by
  have hs : stripAlt (utf8 [c]) = utf8 [c] := stripAlt_utf8 (by intro x _ hx; simp at hx)
  have hcur : decide (e.cursor > 0) = true → ¬ Joins L.cfg c.toNat := by
    intro hc
    rcases hj with rfl | hj
    · rw [h.cursor] at hc; simp at hc
    · exact hj
  have hfalse : ¬ Joins L.cfg c.toNat →
      (areVariationSelectorLike L.cfg (utf8 [c]) || areEmojiModifier L.cfg (utf8 [c])) = false ∧
      areZeroWidthJoin L.cfg (utf8 [c]) = false := by
    intro hn
    apply attaches_utf8 (by simp)
    rintro ⟨x, hx, hjx⟩
    simp at hx
    subst hx
    exact hn hjx
  have hgo : Ed.type L e (utf8 [c]) =
      Ed.typeTail L { e with pending := [] } (e.pending ++ utf8 [c]) := by
    unfold Ed.type
    dsimp only
    rw [hs, if_neg, if_neg]
    · split
      · rfl
      · rename_i hp
        have hp : e.pending = [] := List.length_eq_zero_iff.mp (by omega)
        rw [hp]
        congr 1
        cases e
        simp_all
    · intro hx
      rw [Bool.and_eq_true] at hx
      have := (hfalse (hcur hx.2)).1
      rw [this] at hx
      cases hx.1
    · intro hx
      rw [Bool.and_eq_true] at hx
      have := (hfalse (hcur hx.2)).2
      rw [this] at hx
      cases hx.1
  rw [hgo]
  exact Ed.At.typeTail ⟨h.line, h.cursor⟩

theorem type_backspace {E : Env} {s s1 s2 : St} {rc1 rc2 : Result} {l r : List Bytes} {c : Char}
    (hat : At s l r) (hj : l = [] ∨ ¬ Joins E.cfg c.toNat)
    (hone : (segs E.cfg (s.pending ++ utf8 [c])).length = 1)
    (h1 : Performs E (.selfInsert (utf8 [c])) s s1 rc1)
    (h2 : Performs E .backwardDeleteChar s1 s2 rc2) : At s2 l r := by
  obtain ⟨i, x, ho1, -⟩ := h1.leads rfl
  obtain ⟨j, y, ho2, -⟩ := h2.leads rfl
  obtain ⟨ml, mr, ha, rfl, rfl⟩ := (hat.but i x).ed
  have hat1 := ho1.at (type_char (L := E.logic) (c := c) ha
    (by rcases hj with hj | hj
        · left; simpa using hj
        · right; exact hj))
  obtain ⟨l1, r1, ha1, e1, e2⟩ := (hat1.but j y).ed
  have hat2 := ho2.at (Ed.At.backspace (L := E.logic) ha1)
  have e3 : l1.dropLast.map Moji.write = ml.map Moji.write := by
    rw [List.map_dropLast, e1, ← List.map_dropLast]
    obtain ⟨u, hu⟩ := List.length_eq_one_iff.mp hone
    have : segs E.logic.cfg ((s.but i x).ed.pending ++ utf8 [c]) = [u] := hu
    rw [this, List.dropLast_concat]
  rwa [e3, e2] at hat2

/-- The full statement without the last two hypotheses is false, see below. -/
theorem C12_partial {E : Env} {s s1 s2 : St} {rc1 rc2 : Result} {l r : List Bytes} {c : Char}
    (h1 : Performs E (.selfInsert (utf8 [c])) s s1 rc1)
    (h2 : Performs E .backwardDeleteChar s1 s2 rc2)
    (hat : At s l r) (hj : l = [] ∨ ¬ Joins E.cfg c.toNat) (hp : s.pending = []) : At s2 l r :=
  type_backspace hat hj (by rw [hp]; exact segs_char _ c) h1 h2

/-! ## Characters that attach -/

/-- The character makes the one before it wait for the next one. -/
def Spec.Waits (C : Cfg) (c : Char) : Prop := C.zwjOk = true ∧ (c.toNat = 0x200C ∨ c.toNat = 0x200D)

instance (C : Cfg) (c : Char) : Decidable (Waits C c) := by unfold Waits; infer_instance

theorem type_attach {L : Logic} {e : Ed} {l r : List Moji} {m : Moji} {c : Char} (hm : Built L.cfg m)
    (h : e.At (l ++ [m]) r) (hj : Joins L.cfg c.toNat) :
    if Waits L.cfg c then Ed.At (Ed.type L e (utf8 [c])) l r else
      ∃ m', Ed.At (Ed.type L e (utf8 [c])) (l ++ [m']) r := by
  have hs : stripAlt (utf8 [c]) = utf8 [c] := stripAlt_utf8 (by intro x _ hx; simp at hx)
  have hcur : decide (e.cursor > 0) = true := by rw [h.cursor]; simp
  have hd := decodeRune_utf8 c []
  have hz : areZeroWidthJoin L.cfg (utf8 [c]) = decide (Waits L.cfg c) := by
    rw [Bool.eq_iff_iff, decide_eq_true_iff]
    unfold areZeroWidthJoin
    rw [hd, Bool.and_eq_true, isZeroWidthJoin_iff]
    unfold Waits
    exact ⟨fun h => h.2, fun h => ⟨h.1, h⟩⟩
  have hget : e.line[(e.cursor - 1).toNat]? = some m := by
    rw [h.line, h.cursor]
    simp
  unfold Ed.type
  dsimp only
  rw [hs, hz, hcur, hget]
  simp only [Bool.and_true]
  split
  · rename_i hw
    have hw : Waits L.cfg c := by simpa using hw
    rw [if_pos (by simpa using hw)]
    have := Ed.At.backspace (L := L) (e := { e with pending := (some m).elim [] Moji.write ++ utf8 [c] }) (l := l ++ [m])
      (r := r) ⟨h.line, h.cursor⟩
    rwa [List.dropLast_concat] at this
  · rename_i hw
    have hw : ¬ Waits L.cfg c := by simpa using hw
    have hzj : isZeroWidthJoin L.cfg c.toNat = false := by
      rw [Bool.eq_false_iff, Ne, isZeroWidthJoin_iff]
      exact hw
    have hjo : isJoiner L.cfg c.toNat = true := isJoiner_iff.mpr hj
    have hvm : (areVariationSelectorLike L.cfg (utf8 [c]) || areEmojiModifier L.cfg (utf8 [c])) = true := by
      unfold areVariationSelectorLike areEmojiModifier
      rw [hd]
      unfold isJoiner at hjo
      rw [hzj, Bool.false_or] at hjo
      rcases (Bool.or_eq_true _ _).mp hjo with h1 | h1
      · have : L.cfg.varOk = true := by
          unfold isVariationSelectorLike at h1
          simp at h1
          exact h1.1
        simp [h1, this]
      · have : L.cfg.modOk = true := by
          unfold isEmojiModifier at h1
          simp at h1
          exact h1.1
        simp [h1, this]
    rw [if_neg (by simpa using hw), if_pos hvm]
    have hb := Ed.At.backspace (L := L) h
    rw [List.dropLast_concat] at hb
    have h2 := Ed.At.typeTail (L := L) (t := m.write ++ utf8 [c]) hb
    have : ∃ m', segs L.cfg (m.write ++ utf8 [c]) = [m'] := by
      rw [segs_eq, hm.cut _ _ (Or.inl rfl), runesOf_utf8]
      simp only [List.map_cons, List.map_nil]
      rw [segN, if_neg (by simp), if_neg (by simp [hjo]), if_neg (by simp [hzj])]
      split <;> exact ⟨_, rfl⟩
    obtain ⟨m', hm'⟩ := this
    rw [hm'] at h2
    exact ⟨m', h2⟩

/-- What Backspace does after a character that attaches to the one before it: the character before it is gone, too; and
after a character that makes the one before it wait, the one before that as well. -/
theorem C12_attach {E : Env} {w : World} {s s1 s2 : St} {rc1 rc2 : Result} {l r : List Bytes} {u : Bytes} {c : Char}
    (hb : BuiltinKeys E) (hre : Reachable E w s)
    (h1 : Performs E (.selfInsert (utf8 [c])) s s1 rc1)
    (h2 : Performs E .backwardDeleteChar s1 s2 rc2)
    (hat : At s (l ++ [u]) r) (hj : Joins E.cfg c.toNat) :
    At s2 (if Waits E.cfg c then l.dropLast else l) r := by
  have hbuilt := reachable_built hb hre
  obtain ⟨i, x, ho1, -⟩ := h1.leads rfl
  obtain ⟨j, y, ho2, -⟩ := h2.leads rfl
  obtain ⟨ml, mr, ha, e1, rfl⟩ := (hat.but i x).ed
  obtain ⟨l', mm, rfl, rfl, e2⟩ := List.map_eq_append_iff.mp e1
  obtain ⟨m, rfl, rfl⟩ := List.map_eq_singleton_iff.mp e2
  have hm : Built E.logic.cfg m := hbuilt m (by rw [show s.line = _ from ha.line]; simp)
  have h3 := type_attach (L := E.logic) hm ha hj
  have hw : E.logic.cfg = E.cfg := rfl
  rw [hw] at h3
  split at h3
  · rw [if_pos (by assumption)]
    have ha1 : (s1.but j y).ed.At l' mr := ⟨ho1.line.trans h3.line, ho1.cursor.trans h3.cursor⟩
    have := ho2.at (Ed.At.backspace (L := E.logic) ha1)
    rwa [List.map_dropLast] at this
  · rw [if_neg (by assumption)]
    obtain ⟨m', h3⟩ := h3
    have ha1 : (s1.but j y).ed.At (l' ++ [m']) mr := ⟨ho1.line.trans h3.line, ho1.cursor.trans h3.cursor⟩
    have := ho2.at (Ed.At.backspace (L := E.logic) ha1)
    rwa [List.dropLast_concat] at this

/-- Exactly which characters Backspace takes back. -/
theorem C12_iff {E : Env} {w : World} {s s1 s2 : St} {rc1 rc2 : Result} {l r : List Bytes} {c : Char}
    (hb : BuiltinKeys E) (hre : Reachable E w s)
    (h1 : Performs E (.selfInsert (utf8 [c])) s s1 rc1)
    (h2 : Performs E .backwardDeleteChar s1 s2 rc2)
    (hat : At s l r) (hp : s.pending = []) : At s2 l r ↔ l = [] ∨ ¬ Joins E.cfg c.toNat := by
  constructor
  · intro h
    rcases List.eq_nil_or_concat l with hl | ⟨l', u, hl⟩
    · exact Or.inl hl
    · right
      intro hj
      subst hl
      have h3 := (C12_attach hb hre h1 h2 (by simpa using hat) hj).cursor
      rw [h.cursor] at h3
      split at h3
      · simp at h3; omega
      · simp at h3; omega
  · intro hj
    exact C12_partial h1 h2 hat hj hp

/-- A key of the session that starts with a joiner, and a text inserted by a key, is that joiner
alone. -/
def Spec.SingleJoiners (E : Env) (w : World) : Prop :=
  ∀ k, .key k ∈ w.input ∨ (∃ k', .key k' ∈ w.input ∧ lookupCommand E k' = .selfInsert k) →
    (decodeRune k).1 = 0x200C ∨ (decodeRune k).1 = 0x200D → k = encodeRune (decodeRune k).1

/-- Nothing waits, or a unit with a joiner. -/
def Waiting (C : Cfg) (p : Bytes) : Prop :=
  p = [] ∨ ∃ m z, Built C m ∧ isZeroWidthJoin C z = true ∧ p = m.write ++ encodeRune z

theorem decodeRune_byte (x : UInt8) : (decodeRune [x]).1 ≠ 0x200C ∧ (decodeRune [x]).1 ≠ 0x200D := by
  have hx : ∀ n : Fin 256, (decodeRune [UInt8.ofNat n.val]).1 ≠ 0x200C ∧
      (decodeRune [UInt8.ofNat n.val]).1 ≠ 0x200D := by decide +kernel
  have := hx ⟨x.toNat, x.toNat_lt⟩
  simpa using this

theorem stripAlt_joiner {C : Cfg} {k : Bytes} (h : areZeroWidthJoin C (stripAlt k) = true) :
    stripAlt k = k ∧ C.zwjOk = true ∧ ((decodeRune k).1 = 0x200C ∨ (decodeRune k).1 = 0x200D) := by
  have hz : C.zwjOk = true ∧ isZeroWidthJoin C (decodeRune (stripAlt k)).1 = true := by
    simpa [areZeroWidthJoin] using h
  have hj := (isZeroWidthJoin_iff.mp hz.2).2
  unfold stripAlt at hj ⊢
  split
  · rename_i x
    rcases hj with hj | hj
    · exact absurd hj (decodeRune_byte x).1
    · exact absurd hj (decodeRune_byte x).2
  · rename_i hne
    refine ⟨rfl, hz.1, ?_⟩
    split at hj
    · rename_i x
      exact absurd rfl (hne x)
    · exact hj

theorem waiting_of_key {C : Cfg} {k : Bytes}
    (hs : (decodeRune k).1 = 0x200C ∨ (decodeRune k).1 = 0x200D → k = encodeRune (decodeRune k).1)
    (h : areZeroWidthJoin C (stripAlt k) = true) {m : Moji} (hm : Built C m) :
    Waiting C (m.write ++ stripAlt k) := by
  obtain ⟨h1, h2, h3⟩ := stripAlt_joiner h
  rw [h1]
  right
  refine ⟨m, _, hm, isZeroWidthJoin_iff.mpr ⟨h2, h3⟩, ?_⟩
  rw [← hs h3]

theorem waiting_inv {E : Env} {w : World} {s : St} (hb : BuiltinKeys E) (hc : 0 ≤ w.cursor)
    (hs : SingleJoiners E w) (h : Reachable E w s) : Waiting E.cfg s.pending := by
  induction h with
  | start h =>
    left
    rw [(Obs.of_ed (startSt_ed h).1).pending]
    simp [Ed.start]
  | @step s s' hr hst ih =>
    have hbuilt := reachable_built hb hr
    have hin := reachable_input hb hr
    have hinv := (reachable_inside hb hc hr).1
    rcases step_cases hst with ⟨n, rest, hi⟩ | ⟨k, rest, hi⟩
    · rw [(resize_obs hi hst).pending]; exact ih
    · rw [(step_obs hb hi hst).1.pending]
      rcases Ed.call_pending (L := E.logic) (e := { s.ed with input := rest }) (lookupCommand E k)
        with h | h | ⟨k', hk', h1, h2, h3⟩
      · rw [h]; exact ih
      · rw [h]; exact Or.inl rfl
      · rw [h3]
        have hlt : (s.cursor - 1).toNat < s.line.length := by
          have h4 := hinv
          have h5 : s.cursor ≤ s.line.length := by rw [← St.len_eq]; exact h4.2.2
          have h2 : 0 < s.cursor := h2
          omega
        have hget : (s.ed.line[(s.ed.cursor - 1).toNat]?) = some s.line[(s.cursor - 1).toNat] :=
          List.getElem?_eq_getElem hlt
        dsimp only
        rw [hget]
        refine waiting_of_key (hs k' ?_) h1 (hbuilt _ (List.getElem_mem hlt))
        rw [hi] at hin
        rcases hk' with hk' | hk'
        · exact Or.inr ⟨k, hin.subset (by simp), hk'⟩
        · exact Or.inl (hin.subset (List.mem_cons_of_mem _ hk'))

/-- In a session, also if a joiner waits for the next character. -/
theorem C12_waiting_partial {E : Env} {w : World} {s s1 s2 : St} {rc1 rc2 : Result}
    {l r : List Bytes} {c : Char} (hb : BuiltinKeys E) (hw : 0 ≤ w.cursor) (hs : SingleJoiners E w)
    (hr : Reachable E w s)
    (h1 : Performs E (.selfInsert (utf8 [c])) s s1 rc1)
    (h2 : Performs E .backwardDeleteChar s1 s2 rc2)
    (hat : At s l r) (hj : l = [] ∨ ¬ Joins E.cfg c.toNat) : At s2 l r := by
  refine type_backspace hat hj ?_ h1 h2
  rcases waiting_inv hb hw hs hr with h | ⟨m, z, hm, hz, h⟩
  · rw [h]; exact segs_char _ c
  · rw [h]; exact segs_waiting hm hz c

section
open Example
/-- Typing `い` into the middle of a line, and a joined emoji, and taking them back. -/
example :
    [look (after (env full) { input := keys ["a", "あ", "\x02", "い", "\x08"] } 5),
     look (after (env full) { input := keys ["a", "👩", "‍"] } 3),
     look (after (env full) { input := keys ["a", "👩", "‍", "🚀", "\x08"] } 5)] =
    [.inr ([b "a", b "あ"], 1, 0), .inr ([b "a"], 1, 0), .inr ([b "a"], 1, 0)] := by decide +kernel

/-- A variation selector, and then Backspace: the character before it is gone. -/
theorem C12_refuted :
    look (after (env full) { input := keys ["a", "☃"] } 2) = .inr ([b "a", b "☃"], 2, 0) ∧
    look (after (env full) { input := keys ["a", "☃", "️", "\x08"] } 4) = .inr ([b "a"], 1, 0) := by
  decide +kernel

/-- U+200D and then Backspace: two characters are gone. -/
example :
    look (after (env full) { input := keys ["a", "b", "c", "\u200d", "\x08"] } 5) = .inr ([b "a"], 1, 0) := by
  decide +kernel
end
end Readline
