import Verif.Props.C12
import Verif.Props.C16
import Verif.Proof.Steady
/-!
# C43: typing a joined character equals pasting it

`C43_partial`: in every state and for every text whose code points are typed one key at a time
(with resizes between them) the line, the cursor and what waits for the next key are the same as
after the whole text was inserted at once, and the units of the text stand at the cursor.
`C43_text_partial`: no code point is lost.

The text has to flow (`Spec.Flows`): after a joiner that attaches to a character, a code point
follows that does not itself attach.  Its first code point must not attach to the character
before the cursor, because a text inserted at once never does (`C43_refuted_first`).
`C43_refuted_end`, `C43_refuted_double`, `C43_refuted_selector`: otherwise the two differ and
typed code points are lost or go elsewhere.
-/
namespace Readline
open Spec

/-- Every joiner that attaches to a character is followed by a code point that does not. -/
def Spec.Flows (C : Cfg) : JoinMode → List Char → Prop
  | .joining, [] => False
  | .fresh, [] => True
  | .started, [] => True
  | .joining, c :: cs => ¬ Joins C c.toNat ∧ Flows C .started cs
  | .fresh, _ :: cs => Flows C .started cs
  | .started, c :: cs =>
    (C.zwjOk = true ∧ (c = '‌' ∨ c = '‍') ∧ Flows C .joining cs) ∨
    (¬ (C.zwjOk = true ∧ (c = '‌' ∨ c = '‍')) ∧ Flows C .started cs)

/-- From `s` to `s'` the keys of the session are the code points, each inserting itself; resizes
may come between them. -/
inductive Spec.Typed (E : Env) : List Char → St → St → Prop where
  | nil {s} : Typed E [] s s
  | resize {cs s s1 s' n rest} : s.input = .resize n :: rest → step E s = .ok (s1, none) →
      Typed E cs s1 s' → Typed E cs s s'
  | key {c cs s s1 s' rest} : s.input = .key (utf8 [c]) :: rest →
      lookupCommand E (utf8 [c]) = .selfInsert (utf8 [c]) → step E s = .ok (s1, none) →
      Typed E cs s1 s' → Typed E (c :: cs) s s'

/-! ## One code point after the other -/

/-- One round of `segN`. -/
def segNext (C : Cfg) (n : Rune) (j : Bool) (acc : List Moji) : Bool × List Moji :=
  if j then (false, mapHead (fun m => .zwj m (.raw n)) acc)
  else if acc = [] ∨ isJoiner C n = false then (false, (rune2moji C n 0).norm :: acc)
  else if isZeroWidthJoin C n then (true, acc)
  else if isVariationSelectorLike C n then (false, mapHead (fun m => .vari m (.raw n)) acc)
  else (false, mapHead (fun m => .modi m (.raw n)) acc)

theorem segN_next (C : Cfg) (n : Rune) (rs : List Rune) (j : Bool) (acc : List Moji) :
    segN C (n :: rs) j acc = segN C rs (segNext C n j acc).1 (segNext C n j acc).2 := by
  unfold segNext
  rw [segN]
  repeat' split
  all_goals rfl

/-- The state between two typed code points: `acc` are the units of what was typed so far, backwards;
with `j` the first of them has been taken off the line and waits with a joiner. -/
inductive Joining (C : Cfg) (l r : List Moji) : Bool → List Moji → Ed → Prop where
  | still {acc e} : e.At (l ++ acc.reverse) r → (∀ m ∈ acc, Built C m) → e.pending = [] →
      Joining C l r false acc e
  | waits {m us z e} : e.At (l ++ us.reverse) r → (∀ x ∈ m :: us, Built C x) →
      isZeroWidthJoin C z = true → e.pending = m.write ++ encodeRune z →
      Joining C l r true (m :: us) e

theorem utf8_char (c : Char) : utf8 [c] = encodeRune c.toNat := by
  rw [utf8_eq_encodeRunes]; simp [encodeRunes]

theorem Joining.frame {C : Cfg} {l r : List Moji} {j : Bool} {acc : List Moji} {e e' : Ed}
    (h : Joining C l r j acc e) (h1 : e'.line = e.line) (h2 : e'.cursor = e.cursor)
    (h3 : e'.pending = e.pending) : Joining C l r j acc e' := by
  cases h with
  | still ha hb hp => exact .still ⟨h1.trans ha.line, h2.trans ha.cursor⟩ hb (h3.trans hp)
  | waits ha hb hz hp => exact .waits ⟨h1.trans ha.line, h2.trans ha.cursor⟩ hb hz (h3.trans hp)

theorem Ed.At.left {e : Ed} {l r : List Moji} {m : Moji} (h : e.At (l ++ [m]) r) :
    (e.line[(e.cursor - 1).toNat]?).elim [] Moji.write = m.write := by
  have : (e.cursor - 1).toNat = l.length := by
    have := h.cursor; simp only [List.length_append, List.length_singleton] at this; omega
  rw [this, h.line]
  simp

theorem type_joining {L : Logic} {l r : List Moji} {j : Bool} {acc : List Moji} {e : Ed} {c : Char}
    (h : Joining L.cfg l r j acc e) (h1 : j = true → ¬ Joins L.cfg c.toNat)
    (h2 : acc = [] → l = [] ∨ ¬ Joins L.cfg c.toNat) :
    Joining L.cfg l r (segNext L.cfg c.toNat j acc).1 (segNext L.cfg c.toNat j acc).2
      (Ed.type L e (utf8 [c])) := by
  have hsc := char_isScalar c
  have hs : stripAlt (utf8 [c]) = utf8 [c] := stripAlt_utf8 (by intro x _ hx; simp at hx)
  have hd : (decodeRune (utf8 [c])).1 = c.toNat := decodeRune_utf8 c []
  have hbase : Built L.cfg (rune2moji L.cfg c.toNat 0).norm := .base hsc
  have hseg : segs L.cfg (utf8 [c]) = [(rune2moji L.cfg c.toNat 0).norm] := by
    rw [segs_eq, runesOf_utf8]
    simp [segN]
  cases h with
  | waits ha hb hz hp =>
    rename_i m us z
    have hzs : isScalar z = true := by
      rcases (isZeroWidthJoin_iff.mp hz).2 with rfl | rfl <;> decide
    have hjz : isJoiner L.cfg z = true := by simp [isJoiner, hz]
    have hat := type_char (L := L) (c := c) ha (Or.inr (h1 rfl))
    have hsg : segs L.cfg (e.pending ++ utf8 [c]) = [.zwj m (.raw c.toNat)] := by
      rw [hp, segs_eq, List.append_assoc, (hb m (by simp)).cut _ _ (Or.inl rfl),
        runesOf_encode_append hzs, runesOf_utf8]
      simp [segN, hjz, hz, mapHead]
    have hpend : (Ed.type L e (utf8 [c])).pending = [] := by
      obtain ⟨a1, a2⟩ := attaches_utf8 (C := L.cfg) (cs := [c]) (by simp)
        (by rintro ⟨x, hx, hj⟩; simp at hx; subst hx; exact h1 rfl hj)
      have hpl : e.pending.length > 0 := by
        rw [hp]
        have := List.length_pos_iff.mpr (hb m (by simp)).write_ne_nil
        rw [List.length_append]; omega
      unfold Ed.type
      dsimp only
      rw [hs]
      simp only [a1, a2, Bool.false_and, Bool.false_eq_true, if_false]
      rw [if_pos hpl]
      simp
    rw [hsg] at hat
    refine .still ?_ ?_ hpend
    · simpa [segNext, mapHead] using hat
    · intro x hx
      rcases List.mem_cons.mp hx with rfl | hx
      · exact .zwj (isZeroWidthJoin_iff.mp hz).1 (hb m (by simp)) hsc
      · exact hb x (by simp [hx])
  | still ha hb hp =>
    by_cases hcase : acc = [] ∨ isJoiner L.cfg c.toNat = false
    · have hj : l ++ acc.reverse = [] ∨ ¬ Joins L.cfg c.toNat := by
        rcases hcase with rfl | hcase
        · simpa using h2 rfl
        · right; rw [← isJoiner_iff, hcase]; simp
      have hat := type_char (L := L) (c := c) ha hj
      have hpend : (Ed.type L e (utf8 [c])).pending = [] := by
        rcases hj with hj | hj
        · have hc0 : ¬ e.cursor > 0 := by rw [ha.cursor, hj]; simp
          unfold Ed.type
          dsimp only
          simp [hc0, hp]
        · obtain ⟨a1, a2⟩ := attaches_utf8 (C := L.cfg) (cs := [c]) (by simp)
            (by rintro ⟨x, hx, hj'⟩; simp at hx; subst hx; exact hj hj')
          unfold Ed.type
          dsimp only
          rw [hs]
          simp [a1, a2, hp]
      rw [hp, List.nil_append, hseg] at hat
      have e1 : segNext L.cfg c.toNat false acc = (false, (rune2moji L.cfg c.toNat 0).norm :: acc) := by
        unfold segNext
        rw [if_neg (by simp), if_pos hcase]
      rw [e1]
      refine .still ?_ ?_ hpend
      · simpa using hat
      · intro x hx
        rcases List.mem_cons.mp hx with rfl | hx
        · exact hbase
        · exact hb x hx
    · cases acc with
      | nil => exact absurd (Or.inl rfl) hcase
      | cons m us =>
        have hm := hb m (by simp)
        have hat : e.At ((l ++ us.reverse) ++ [m]) r := by simpa using ha
        have hleft := hat.left
        have hc0 : e.cursor > 0 := by
          rw [hat.cursor, List.length_append, List.length_singleton]; omega
        have hbs := fun e' (h : Ed.At e' ((l ++ us.reverse) ++ [m]) r) => Ed.At.backspace (L := L) h
        simp only [List.dropLast_concat] at hbs
        have hj : isJoiner L.cfg c.toNat = true := by
          cases hx : isJoiner L.cfg c.toNat with
          | true => rfl
          | false => exact absurd (Or.inr hx) hcase
        by_cases hz : isZeroWidthJoin L.cfg c.toNat = true
        · have e1 : segNext L.cfg c.toNat false (m :: us) = (true, m :: us) := by
            unfold segNext
            rw [if_neg (by simp), if_neg hcase, if_pos hz]
          have hare : areZeroWidthJoin L.cfg (utf8 [c]) = true := by
            unfold areZeroWidthJoin
            rw [hd, hz, (isZeroWidthJoin_iff.mp hz).1]
            rfl
          have et : Ed.type L e (utf8 [c]) =
              Ed.backspace L { e with pending := m.write ++ utf8 [c] } := by
            unfold Ed.type
            dsimp only
            rw [hs, hleft]
            simp [hare, hc0]
          rw [e1, et]
          refine .waits (hbs _ ⟨hat.line, hat.cursor⟩) hb hz ?_
          rw [Ed.backspace_pending]
          show m.write ++ utf8 [c] = _
          rw [utf8_char]
        · have hz' : isZeroWidthJoin L.cfg c.toNat = false := by simpa using hz
          have hare : areZeroWidthJoin L.cfg (utf8 [c]) = false := by
            unfold areZeroWidthJoin
            rw [hd, hz']; simp
          have hvm : (areVariationSelectorLike L.cfg (utf8 [c]) ||
              areEmojiModifier L.cfg (utf8 [c])) = true := by
            unfold areVariationSelectorLike areEmojiModifier
            rw [hd]
            simp only [isJoiner, hz', Bool.false_or] at hj
            have hv : isVariationSelectorLike L.cfg c.toNat = true → L.cfg.varOk = true := by
              unfold isVariationSelectorLike; simp; intro a _; exact a
            have hmd : isEmojiModifier L.cfg c.toNat = true → L.cfg.modOk = true := by
              unfold isEmojiModifier; simp; intro a _ _; exact a
            rcases Bool.or_eq_true_iff.mp hj with h | h
            · simp [h, hv h]
            · simp [h, hmd h]
          have et : Ed.type L e (utf8 [c]) =
              Ed.typeTail L (Ed.backspace L e) (m.write ++ utf8 [c]) := by
            unfold Ed.type
            dsimp only
            rw [hs, hleft]
            simp [hare, hvm, hc0]
          have hpend : (Ed.type L e (utf8 [c])).pending = [] := by
            rw [et, Ed.typeTail_pending, Ed.backspace_pending, hp]
          have hat2 := Ed.At.typeTail (L := L) (t := m.write ++ utf8 [c]) (hbs e hat)
          have hcut : segs L.cfg (m.write ++ utf8 [c]) = segN L.cfg [c.toNat] false [m] := by
            rw [segs_eq, hm.cut _ _ (Or.inl rfl), runesOf_utf8]
            rfl
          rw [hcut, ← et] at hat2
          by_cases hv : isVariationSelectorLike L.cfg c.toNat = true
          · have e1 : segNext L.cfg c.toNat false (m :: us) = (false, .vari m (.raw c.toNat) :: us) := by
              unfold segNext
              rw [if_neg (by simp), if_neg hcase, if_neg hz, if_pos hv]
              rfl
            rw [e1]
            refine .still ?_ ?_ hpend
            · simpa [segN, hj, hz', hv, mapHead] using hat2
            · intro x hx
              rcases List.mem_cons.mp hx with rfl | hx
              · exact .vari hm hsc hz' hv
              · exact hb x (by simp [hx])
          · have hv' : isVariationSelectorLike L.cfg c.toNat = false := by simpa using hv
            have hmo : isEmojiModifier L.cfg c.toNat = true := by
              simpa [isJoiner, hz', hv'] using hj
            have e1 : segNext L.cfg c.toNat false (m :: us) = (false, .modi m (.raw c.toNat) :: us) := by
              unfold segNext
              rw [if_neg (by simp), if_neg hcase, if_neg hz, if_neg hv]
              rfl
            rw [e1]
            refine .still ?_ ?_ hpend
            · simpa [segN, hj, hz', hv', mapHead] using hat2
            · intro x hx
              rcases List.mem_cons.mp hx with rfl | hx
              · exact .modi hm hsc hz' hv' hmo
              · exact hb x (by simp [hx])

/-- The mode of the specification and the state between two code points. -/
def Spec.JoinMode.fits (m : JoinMode) (j : Bool) (acc : List Moji) : Prop :=
  match m with
  | .fresh => j = false ∧ acc = []
  | .started => j = false ∧ acc ≠ []
  | .joining => j = true ∧ acc ≠ []

theorem isZwj_char {C : Cfg} {c : Char} :
    isZeroWidthJoin C c.toNat = true ↔ C.zwjOk = true ∧ (c = '‌' ∨ c = '‍') := by
  rw [isZeroWidthJoin_iff]
  constructor
  · rintro ⟨h, hc | hc⟩
    · exact ⟨h, Or.inl (Char.toNat_inj.mp hc)⟩
    · exact ⟨h, Or.inr (Char.toNat_inj.mp hc)⟩
  · rintro ⟨h, rfl | rfl⟩
    · exact ⟨h, Or.inl rfl⟩
    · exact ⟨h, Or.inr rfl⟩

theorem flows_next {C : Cfg} {md : JoinMode} {c : Char} {cs : List Char} {j : Bool} {acc : List Moji}
    (hf : Flows C md (c :: cs)) (hm : md.fits j acc) :
    (j = true → ¬ Joins C c.toNat) ∧
    ∃ md', md' ≠ .fresh ∧ Flows C md' cs ∧ md'.fits (segNext C c.toNat j acc).1 (segNext C c.toNat j acc).2 := by
  cases md with
  | fresh =>
    obtain ⟨rfl, rfl⟩ := hm
    exact ⟨by simp, .started, by simp, hf, by simp [segNext, Spec.JoinMode.fits]⟩
  | joining =>
    obtain ⟨rfl, hne⟩ := hm
    refine ⟨fun _ => hf.1, .started, by simp, hf.2, ?_⟩
    cases acc with
    | nil => exact absurd rfl hne
    | cons m us => simp [segNext, mapHead, Spec.JoinMode.fits]
  | started =>
    obtain ⟨rfl, hne⟩ := hm
    refine ⟨by simp, ?_⟩
    cases acc with
    | nil => exact absurd rfl hne
    | cons m us =>
      rcases hf with ⟨h1, h2, hf⟩ | ⟨h1, hf⟩
      · have hz := isZwj_char.mpr ⟨h1, h2⟩
        refine ⟨.joining, by simp, hf, ?_⟩
        simp [segNext, isJoiner, hz, Spec.JoinMode.fits]
      · have hz : isZeroWidthJoin C c.toNat = false := by
          rw [Bool.eq_false_iff]; intro hx; exact h1 (isZwj_char.mp hx)
        refine ⟨.started, by simp, hf, ?_⟩
        unfold segNext
        rw [if_neg (by simp)]
        split
        · exact ⟨rfl, by simp⟩
        · rw [if_neg (by simp [hz])]
          split
          · exact ⟨rfl, by simp [mapHead]⟩
          · exact ⟨rfl, by simp [mapHead]⟩

theorem typed_joining {E : Env} {cs : List Char} {s s' : St} (ht : Typed E cs s s')
    {l r : List Moji} {md : JoinMode} {j : Bool} {acc : List Moji} (h : Joining E.cfg l r j acc s.ed)
    (hm : md.fits j acc) (hf : Flows E.cfg md cs)
    (hl : acc = [] → l = [] ∨ ∀ c, cs.head? = some c → ¬ Joins E.cfg c.toNat) :
    s'.ed.At (l ++ segN E.cfg (cs.map Char.toNat) j acc) r ∧ s'.pending = [] := by
  induction ht generalizing md j acc with
  | @nil s =>
    have hj : j = false := by
      cases md with
      | fresh => exact hm.1
      | started => exact hm.1
      | joining => exact hf.elim
    subst hj
    cases h with
    | still ha hb hp =>
      refine ⟨?_, hp⟩
      simpa [segN] using ha
  | @resize cs s s1 s' n rest hi hst ht ih =>
    have ho := resize_obs hi hst
    exact ih (h.frame ho.line ho.cursor ho.pending) hm hf hl
  | @key c cs s s1 s' rest hi hk hst ht ih =>
    obtain ⟨h1, md', hmd, hf', hm'⟩ := flows_next hf hm
    obtain ⟨ho, he⟩ := (step_key_ed hi hk rfl hst).1 (by simp [Ed.call])
    have he : s1.ed = Ed.type E.logic { s.ed with input := rest } (utf8 [c]) := by
      rcases he with he | ⟨hx, -⟩
      · exact he
      · cases hx
    have hj2 := type_joining (L := E.logic) (c := c) (e := { s.ed with input := rest })
      (h.frame rfl rfl rfl) h1 (by
      intro h0
      rcases hl h0 with h | h
      · exact Or.inl h
      · exact Or.inr (h c rfl))
    rw [← he] at hj2
    rw [List.map_cons, segN_next]
    refine ih hj2 hm' hf' ?_
    intro h0
    cases md' with
    | fresh => exact absurd rfl hmd
    | started => exact absurd h0 hm'.2
    | joining => exact absurd h0 hm'.2

/-! ## Typed and pasted -/

/-- The first code point does not attach to what stands left of the cursor. -/
def Spec.StandsAlone (C : Cfg) (l : List Bytes) (cs : List Char) : Prop :=
  l = [] ∨ ∀ c, cs.head? = some c → ¬ Joins C c.toNat

/-- Where the units of the typed text are. -/
theorem C43_units_partial {E : Env} {s s' : St} {l r : List Bytes} {cs : List Char}
    (ht : Typed E cs s s') (hat : At s l r) (hp : s.pending = []) (hf : Flows E.cfg .fresh cs)
    (hl : StandsAlone E.cfg l cs) :
    At s' (l ++ unitsOf E.cfg (utf8 cs)) r ∧ s'.pending = [] := by
  obtain ⟨ml, mr, ha, rfl, rfl⟩ := hat.ed
  have hl' : ([] : List Moji) = [] → ml = [] ∨ ∀ c, cs.head? = some c → ¬ Joins E.cfg c.toNat := by
    intro _
    rcases hl with h | h
    · left; simpa using h
    · exact Or.inr h
  obtain ⟨h1, h2⟩ := typed_joining ht (l := ml) (r := mr) (md := .fresh) (j := false) (acc := [])
    (.still (by simpa using ha) (by simp) hp) ⟨rfl, rfl⟩ hf hl'
  refine ⟨?_, h2⟩
  have := (Obs.of_ed (rfl : s'.ed = s'.ed)).at h1
  rw [← segs_units, segs_eq, runesOf_utf8, ← List.map_append]
  exact this

/-- A text inserted at once by `InsertAndRepaint` (as `YANK` does it). -/
theorem pasted_at {E : Env} {s s' : St} {l r : List Bytes} {t : Bytes}
    (h : insertAndRepaint E s t = .ok s') (hat : At s l r) :
    At s' (l ++ unitsOf E.cfg t) r ∧ s'.pending = s.pending := by
  obtain ⟨ml, mr, ha, rfl, rfl⟩ := hat.ed
  have he := insertAndRepaint_ed h
  have : s.cursor = ml.length := ha.cursor
  rw [this] at he
  have h1 := Ed.At.replace (L := E.logic) (l := ml) (m := []) (t := t) (by simpa using ha)
  refine ⟨?_, ?_⟩
  · have := (Obs.of_ed he).at h1
    rw [← segs_units, ← List.map_append]
    exact this
  · rw [(Obs.of_ed he).pending, Ed.replace_pending]
    rfl

/-- **C43**: the same line, the same cursor, nothing left to wait.  (Missing from the full claim:
texts that do not flow or that attach to what stands before them, where it is false.) -/
theorem C43_partial {E : Env} {s s1 s2 : St} {l r : List Bytes} {cs : List Char}
    (ht : Typed E cs s s1) (hpaste : insertAndRepaint E s (utf8 cs) = .ok s2)
    (hat : At s l r) (hp : s.pending = []) (hf : Flows E.cfg .fresh cs)
    (hl : StandsAlone E.cfg l cs) :
    s1.units = s2.units ∧ s1.cursor = s2.cursor ∧ s1.pending = s2.pending ∧ s1.text = s2.text := by
  obtain ⟨a1, p1⟩ := C43_units_partial ht hat hp hf hl
  obtain ⟨a2, p2⟩ := pasted_at hpaste hat
  refine ⟨a1.units.trans a2.units.symm, a1.cursor.trans a2.cursor.symm, ?_, ?_⟩
  · rw [p1, p2, hp]
  · rw [a1.text, a2.text]

/-- The same when the whole text comes as one key. -/
theorem C43_key_partial {E : Env} {s s1 s2 : St} {rc : Result} {l r : List Bytes} {cs : List Char}
    (ht : Typed E cs s s1) (hkey : Performs E (.selfInsert (utf8 cs)) s s2 rc)
    (hne : cs ≠ []) (ha : ∀ c : Char, c.toNat < 128 → cs ≠ ['\x1b', c])
    (hat : At s l r) (hp : s.pending = []) (hf : Flows E.cfg .fresh cs)
    (hl : StandsAlone E.cfg l cs) :
    s1.units = s2.units ∧ s1.cursor = s2.cursor ∧ s1.pending = s2.pending ∧ s1.text = s2.text := by
  obtain ⟨a1, p1⟩ := C43_units_partial ht hat hp hf hl
  have a2 : At s2 (l ++ unitsOf E.cfg (utf8 cs)) r ∧ s2.pending = [] := by
    obtain ⟨i, x, ho, -⟩ := hkey.leads rfl
    obtain ⟨ml, mr, hme, rfl, rfl⟩ := (hat.but i x).ed
    have hty : Ed.type E.logic (s.but i x).ed (utf8 cs) = Ed.typeTail E.logic (s.but i x).ed (utf8 cs) := by
      have hpe : (s.but i x).ed.pending = [] := hp
      unfold Ed.type
      dsimp only
      rw [stripAlt_utf8 ha]
      rcases hl with hl | hl
      · have hml : ml = [] := by simpa using hl
        have hc0 : ¬ (s.but i x).ed.cursor > 0 := by rw [hme.cursor, hml]; simp
        simp [hc0, hpe]
      · cases cs with
        | nil => exact absurd rfl hne
        | cons c cs =>
          obtain ⟨b1, b2⟩ := attaches_utf8 (C := E.cfg) (cs := c :: cs) (by simp)
            (by rintro ⟨x, hx, hj⟩; exact hl x hx hj)
          have b1 : (areVariationSelectorLike E.logic.cfg (utf8 (c :: cs)) ||
            areEmojiModifier E.logic.cfg (utf8 (c :: cs))) = false := b1
          have b2 : areZeroWidthJoin E.logic.cfg (utf8 (c :: cs)) = false := b2
          simp [b1, b2, hpe]
    have hcall : (Ed.call E.logic (.selfInsert (utf8 cs)) (s.but i x).ed).1 = Ed.typeTail E.logic (s.but i x).ed (utf8 cs) := hty
    rw [hcall] at ho
    refine ⟨?_, ?_⟩
    · have := ho.at (Ed.At.typeTail hme)
      rw [← segs_units, ← List.map_append]
      exact this
    · rw [ho.pending, Ed.typeTail_pending]; exact hp
  obtain ⟨a2, p2⟩ := a2
  refine ⟨a1.units.trans a2.units.symm, a1.cursor.trans a2.cursor.symm, ?_, ?_⟩
  · rw [p1, p2]
  · rw [a1.text, a2.text]

theorem flows_rejoin {C : Cfg} {md : JoinMode} {cs : List Char} (hf : Flows C md cs)
    (h : C.zwjOk = true → '‌' ∉ cs) :
    rejoin C.zwjOk md (cs.map Char.toNat) = cs.map Char.toNat := by
  induction cs generalizing md with
  | nil => cases md <;> simp_all [rejoin, Flows]
  | cons c cs ih =>
    have h' : C.zwjOk = true → '‌' ∉ cs := fun hz hx => h hz (List.mem_cons_of_mem _ hx)
    cases md with
    | fresh => rw [List.map_cons, rejoin, ih hf h']
    | joining => rw [List.map_cons, rejoin, ih hf.2 h']
    | started =>
      rw [List.map_cons, rejoin]
      rcases hf with ⟨h1, h2, hf⟩ | ⟨h1, hf⟩
      · have hc : c = '‍' := by
          rcases h2 with h2 | h2
          · exact absurd (by simp [h2]) (h h1)
          · exact h2
        subst hc
        rw [if_pos ⟨h1, Or.inr rfl⟩, ih hf h']
        rfl
      · rw [if_neg, ih hf h']
        rintro ⟨hz, hc | hc⟩
        · exact h1 ⟨hz, Or.inl (Char.toNat_inj.mp hc)⟩
        · exact h1 ⟨hz, Or.inr (Char.toNat_inj.mp hc)⟩

/-- **C43**, second part: no typed code point is lost.  (U+200C is written back as U+200D, see C05.) -/
theorem C43_text_partial {E : Env} {s s1 : St} {l r : List Bytes} {cs : List Char}
    (ht : Typed E cs s s1) (hat : At s l r) (hp : s.pending = []) (hf : Flows E.cfg .fresh cs)
    (hl : StandsAlone E.cfg l cs) (hn : E.cfg.zwjOk = true → '‌' ∉ cs) :
    s1.text = l.flatten ++ utf8 cs ++ r.flatten := by
  obtain ⟨a1, -⟩ := C43_units_partial ht hat hp hf hl
  rw [a1.text, List.flatten_append, ← segs_units, flatten_write, segs_text, runesOf_utf8,
    flows_rejoin hf hn, ← utf8_eq_encodeRunes]

/-- On a terminal that does not join, every text flows. -/
theorem flows_plain {C : Cfg} (hz : C.zwjOk = false) (cs : List Char) :
    Flows C .fresh cs ∧ Flows C .started cs := by
  induction cs with
  | nil => exact ⟨trivial, trivial⟩
  | cons c cs ih =>
    refine ⟨ih.2, Or.inr ⟨?_, ih.2⟩⟩
    rintro ⟨h, -⟩
    rw [hz] at h; cases h

section
open Example

/-- A family, a heart with a selector and a hand with a skin tone. -/
example : Flows full .fresh ['👩', '‍', '👧', '❤', '️', '👍', '🏽', '‍', 'x'] := by
  refine Or.inl ⟨rfl, by decide, by decide, Or.inr ⟨by decide, Or.inr ⟨by decide, Or.inr ⟨by decide,
    Or.inr ⟨by decide, Or.inl ⟨rfl, by decide, by decide, trivial⟩⟩⟩⟩⟩⟩

/-- Run the events as typed code points; used for the example. -/
def typedCheck (E : Env) (p : St → Bool) : Nat → List Char → St → Bool
  | 0, _, _ => false
  | n + 1, cs, s =>
    (cs.isEmpty && p s) ||
    match s.input with
    | .resize _ :: _ =>
      (match step E s with
      | .ok (s1, none) => typedCheck E p n cs s1
      | _ => false)
    | .key k :: _ =>
      (match cs with
      | c :: cs =>
        decide (k = utf8 [c]) &&
          (match lookupCommand E (utf8 [c]) with
          | .selfInsert k' => decide (k' = utf8 [c])
          | _ => false) &&
          (match step E s with
          | .ok (s1, none) => typedCheck E p n cs s1
          | _ => false)
      | [] => false)
    | _ => false

theorem typedCheck_ok {E : Env} {p : St → Bool} {n : Nat} {cs : List Char} {s : St}
    (h : typedCheck E p n cs s = true) : ∃ s', Typed E cs s s' ∧ p s' = true := by
  induction n generalizing cs s with
  | zero => cases h
  | succ n ih =>
    rw [typedCheck, Bool.or_eq_true] at h
    rcases h with h | h
    · rw [Bool.and_eq_true, List.isEmpty_iff] at h
      obtain ⟨rfl, h⟩ := h
      exact ⟨s, .nil, h⟩
    · split at h
      · rename_i hi
        split at h
        · rename_i s1 hst
          obtain ⟨s', h1, h2⟩ := ih h
          exact ⟨s', .resize hi hst h1, h2⟩
        · cases h
      · rename_i k rest hi
        split at h
        · rename_i c cs
          simp only [Bool.and_eq_true, decide_eq_true_eq] at h
          obtain ⟨⟨rfl, hk⟩, h⟩ := h
          split at hk
          · rename_i k' hk'
            have hk := of_decide_eq_true hk
            subst hk
            split at h
            · rename_i s1 hst
              obtain ⟨s', h1, h2⟩ := ih h
              exact ⟨s', .key hi hk' hst h1, h2⟩
            · cases h
          · cases hk
        · cases h
      · cases h

/-- The session of the theorem: `a`, back, then three code points with a resize in the middle. -/
example : ∃ s s', Reachable (env full) { input := keys ["a", "\x02", "👩", "‍"] ++ [.resize 40] ++ keys ["👧"] } s ∧
    Typed (env full) ['👩', '‍', '👧'] s s' ∧ At s [] [b "a"] ∧ s.pending = [] ∧
    s'.units = [b "👩‍👧", b "a"] := by
  obtain ⟨s, hs, h⟩ := gets_ok (E := env full)
    (w := { input := keys ["a", "\x02", "👩", "‍"] ++ [.resize 40] ++ keys ["👧"] }) (n := 2)
    (p := fun s => typedCheck (env full) (fun s' => decide (s'.units = [b "👩‍👧", b "a"])) 5 ['👩', '‍', '👧'] s &&
      decide (s.units = [b "a"] ∧ s.cursor = 0 ∧ s.pending = [])) (by decide +kernel)
  rw [Bool.and_eq_true, decide_eq_true_eq] at h
  obtain ⟨s', h1, h2⟩ := typedCheck_ok h.1
  exact ⟨s, s', hs, h1, ⟨h.2.1, h.2.2.1⟩, h.2.2.2, of_decide_eq_true h2⟩

/-- One after the other and at once. -/
example :
    [look (after (env full) { input := keys ["a", "\x02", "👩", "‍", "👧", "❤", "️"] } 7),
     look (after (env full) { input := keys ["a", "\x02", "👩‍👧❤️"] } 3)] =
    [.inr ([b "👩‍👧", b "❤️", b "a"], 2, 0), .inr ([b "👩‍👧", b "❤️", b "a"], 2, 0)] := by decide +kernel

/-- A joiner at the end: typed, the character before it is gone; inserted at once, U+FFFD follows it. -/
theorem C43_refuted_end :
    [look (after (env full) { input := keys ["a", "👩", "‍"] } 3),
     look (after (env full) { input := keys ["a", "👩‍"] } 2)] =
    [.inr ([b "a"], 1, 0), .inr ([b "a", b "👩‍\uFFFD"], 2, 0)] := by decide +kernel

/-- Two joiners. -/
theorem C43_refuted_double :
    [look (after (env full) { input := keys ["a", "👩", "‍", "‍", "b"] } 5),
     look (after (env full) { input := keys ["a", "👩‍‍b"] } 2)] =
    [.inr ([b "a‍b"], 1, 0), .inr ([b "a", b "👩‍‍", b "b"], 3, 0)] := by decide +kernel

/-- A selector after a joiner goes to another character. -/
theorem C43_refuted_selector :
    [look (after (env full) { input := keys ["a", "👩", "‍", "️", "b"] } 5),
     look (after (env full) { input := keys ["a", "👩‍️b"] } 2)] =
    [.inr ([b "a️", b "👩‍b"], 2, 0), .inr ([b "a", b "👩‍️", b "b"], 3, 0)] := by decide +kernel

/-- A selector at the beginning: typed, it attaches to `a`; yanked, it does not. -/
theorem C43_refuted_first :
    [look (after (env full) { input := keys ["a", "️"] } 2),
     look (after (env full) { input := keys ["a", "\x19"], clip := some (b "️") } 2)] =
    [.inr ([b "a️"], 1, 0), .inr ([b "a", b "️"], 2, 0)] := by decide +kernel

end
end Readline
