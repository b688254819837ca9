import Verif.Spec.Textbook
import Verif.Props.C18
import Verif.Props.C19
import Verif.Props.C20
import Verif.Props.C40
import Verif.Props.C62
import Verif.Proof.Trim
import Verif.Proof.Source
import Verif.Proof.Quote
/-!
# The editor without a screen and the textbook
-/
namespace Readline
open Spec

/-! ## Characters and units -/

/-- The unit of a character that stands alone. -/
def unit (C : Cfg) (c : Char) : Moji := (rune2moji C c.toNat 0).norm

theorem unit_write (C : Cfg) (c : Char) : (unit C c).write = utf8 [c] := by
  unfold unit
  rw [Moji.norm_write, rune2moji_write, utf8_one]

theorem lineText_chars (C : Cfg) (t : List Char) : lineText (t.map (unit C)) = utf8 t := by
  induction t with
  | nil => rfl
  | cons c t ih => rw [List.map_cons, lineText_cons, ih, unit_write, ← utf8_more]

theorem unit_toRune (C : Cfg) (c : Char) : (unit C c).toRune? = if c = '\t' then none else some c.toNat := by
  unfold unit
  rw [Moji.norm_toRune]
  unfold rune2moji
  by_cases h : c = '\t'
  · subst h; rfl
  · have h9 : ¬ c.toNat = 9 := fun hx => h (Char.toNat_inj.mp hx)
    rw [if_neg h9, if_neg h]
    repeat' split
    all_goals rfl

theorem unit_isSpace (C : Cfg) (c : Char) : (unit C c).isSpace = Gap c := by
  unfold Moji.isSpace Gap
  rw [unit_toRune]
  by_cases h : c = '\t'
  · simp [h]
  · rw [if_neg h]
    simp only [h, not_false_eq_true, decide_true, Bool.and_true, ne_eq]
    rw [Bool.eq_iff_iff, isSpaceRune_iff, decide_eq_true_iff]

/-- No character of the text attaches to the one before. -/
def Spec.AloneIn (C : Cfg) (t : List Char) : Prop := ∀ c ∈ t, ¬ Joins C c.toNat

theorem joiner_of {C : Cfg} {c : Char} (h : ¬ Joins C c.toNat) : isJoiner C c.toNat = false := by
  cases hj : isJoiner C c.toNat with
  | false => rfl
  | true => exact absurd (isJoiner_iff.mp hj) h

theorem segN_alone (C : Cfg) (t : List Char) (h : AloneIn C t) (acc : List Moji) :
    segN C (t.map Char.toNat) false acc = acc.reverse ++ t.map (unit C) := by
  induction t generalizing acc with
  | nil => simp [segN]
  | cons c t ih =>
    rw [List.map_cons, segN, if_neg (by simp), if_pos (Or.inr (joiner_of (h c (by simp)))), ih (fun x hx => h x (by simp [hx]))]
    simp [unit]

theorem segs_alone {C : Cfg} {t : List Char} (h : AloneIn C t) : segs C (utf8 t) = t.map (unit C) := by
  rw [segs_eq, runesOf_utf8, segN_alone C t h]
  rfl

theorem over_alone {C : Cfg} {t : List Char} : Over (fun r => ¬ Joins C r) (utf8 t) ↔ AloneIn C t := by
  unfold Over AloneIn
  rw [runesOf_utf8]
  simp

/-! ## Prefixes and parts of texts -/

theorem utf8_prefix {a l : List Char} : utf8 a <+: utf8 l ↔ a <+: l := by
  constructor
  · intro h
    induction a generalizing l with
    | nil => exact List.nil_prefix
    | cons c a ih =>
      cases l with
      | nil => exact absurd (List.prefix_nil.mp h) (by rw [utf8_more]; simp [utf8_one_ne])
      | cons d l =>
        obtain ⟨z, hz⟩ := h
        have := congrArg decodeRune hz
        rw [utf8_more, utf8_more d, List.append_assoc, utf8_one, utf8_one, decode_encode (char_isScalar c),
          decode_encode (char_isScalar d)] at this
        have hcd : c = d := Char.toNat_inj.mp (Prod.ext_iff.mp this).1
        subst hcd
        rw [utf8_more c a, utf8_more c l, List.append_assoc] at hz
        exact List.cons_prefix_cons.mpr ⟨rfl, ih ⟨z, List.append_cancel_left hz⟩⟩
  · rintro ⟨z, rfl⟩
    rw [utf8_append]
    exact List.prefix_append _ _

theorem utf8_infix {a l : List Char} (h : utf8 a <:+: utf8 l) : a <:+: l := by
  cases a with
  | nil => exact List.nil_infix
  | cons c a =>
    induction l with
    | nil =>
      have : utf8 (c :: a) = [] := List.infix_nil.mp h
      rw [utf8_more] at this
      simp [utf8_one_ne] at this
    | cons d l ih =>
      obtain ⟨u, v, e⟩ := h
      cases u with
      | nil => exact (utf8_prefix.mp ⟨v, by simpa using e⟩).isInfix
      | cons x u =>
        rw [utf8_more d] at e
        rcases Nat.lt_or_ge (x :: u).length (utf8 [d]).length with hl | hl
        · exfalso
          rw [utf8_more c, List.append_assoc, List.append_assoc] at e
          have hp : x :: u <+: utf8 [d] := List.prefix_of_prefix_length_le ⟨_, e⟩ (List.prefix_append _ _) (by omega)
          obtain ⟨y, hy⟩ := hp
          rw [← hy, List.append_assoc] at e
          have e := List.append_cancel_left e
          cases y with
          | nil => rw [List.append_nil] at hy; rw [← hy] at hl; omega
          | cons z y =>
            have h1 := (byte_start (char_isScalar d) ((utf8_one d).symm.trans hy.symm)).2 z (by simp)
            cases hc : utf8 [c] with
            | nil => exact utf8_one_ne c hc
            | cons q qs =>
              have h2 := (byte_start (char_isScalar c) ((utf8_one c).symm.trans hc)).1
              rw [hc] at e
              simp only [List.cons_append, List.cons.injEq] at e
              rw [← e.1, h2] at h1
              cases h1
        · obtain ⟨y, hy⟩ := List.prefix_of_prefix_length_le (List.prefix_append (utf8 [d]) (utf8 l))
            (⟨_, by rw [← e, List.append_assoc]⟩ : x :: u <+: utf8 [d] ++ utf8 l) hl
          rw [← hy, List.append_assoc, List.append_assoc] at e
          have e := List.append_cancel_left e
          have := ih ⟨y, v, by rw [← e, List.append_assoc]⟩
          exact this.trans (List.suffix_cons d l).isInfix

theorem infix_iff {α : Type} [BEq α] [LawfulBEq α] {a l : List α} :
    ((List.range (l.length + 1)).any fun i => a.isPrefixOf (l.drop i)) = true ↔ a <:+: l := by
  simp only [List.any_eq_true, List.mem_range, List.isPrefixOf_iff_prefix]
  constructor
  · rintro ⟨i, -, v, hv⟩
    exact ⟨l.take i, v, by rw [List.append_assoc, hv, List.take_append_drop]⟩
  · rintro ⟨u, v, rfl⟩
    refine ⟨u.length, by simp; omega, ?_⟩
    simp

/-! ## The settings -/

/-- The desk has what the editor is set to. -/
structure Suits (D : Desk) (L : Logic) : Prop where
  history : L.history = D.history.map utf8
  cycling : L.historyCycling = D.cycling
  guessing : L.predictOn = D.guessing
  predict : ∀ t, L.predict (utf8 t) = utf8 (D.guess t)
  within : D.Within fun c => ¬ Joins L.cfg c.toNat
  marks : L.delimiters = D.marks.map Char.toNat
  noNul : '\x00' ∉ D.marks
  upper : ∀ t, L.toUpper (utf8 t) = utf8 (D.upper t)
  clipSet : L.clipSet = fun _ t => some t
  alone : ∀ h ∈ D.history, AloneIn L.cfg h

theorem prefix_bool {a l : List Char} : (utf8 a).isPrefixOf (utf8 l) = a.isPrefixOf l := by
  rw [Bool.eq_iff_iff, List.isPrefixOf_iff_prefix, List.isPrefixOf_iff_prefix, utf8_prefix]

theorem predictLoop_chars (t : List Char) (hs : List (List Char)) :
    predictLoop (utf8 t) (hs.map utf8) =
      utf8 (match hs.find? (fun h => t.isPrefixOf h) with | some h => h.drop t.length | none => []) := by
  induction hs with
  | nil => rfl
  | cons h hs ih =>
    rw [List.map_cons, predictLoop, prefix_bool, List.find?_cons]
    cases hp : t.isPrefixOf h with
    | true =>
      obtain ⟨z, rfl⟩ := List.isPrefixOf_iff_prefix.mp hp
      simp [utf8_append]
    | false => simpa using ih

theorem predictByHistory_chars (hist : List (List Char)) (t : List Char) :
    predictByHistory (hist.map utf8) (utf8 t) = utf8 (newestRest hist t) := by
  rw [predictByHistory, ← List.map_reverse, predictLoop_chars]
  rfl

theorem Spec.Desk.Within.mono {D : Desk} {P Q : Char → Prop} (h : D.Within P) (hi : ∀ c, P c → Q c) : D.Within Q :=
  fun hist t c hc => (h hist t c hc).imp_right fun h => h.imp_right (hi c)

theorem Spec.Desk.Within.and {D : Desk} {P Q : Char → Prop} (h : D.Within P) (h' : D.Within Q) : D.Within fun c => P c ∧ Q c := by
  intro hist t c hc
  rcases h hist t c hc with h1 | h1 | h1
  · exact .inl h1
  · exact .inr (.inl h1)
  · rcases h' hist t c hc with h2 | h2 | h2
    · exact .inl h2
    · exact .inr (.inl h2)
    · exact .inr (.inr ⟨h1, h2⟩)

theorem Spec.Desk.Within.all {D : Desk} {P : Char → Prop} (h : D.Within P) {hist : List (List Char)} {t : List Char}
    (hh : ∀ h ∈ hist, ∀ c ∈ h, P c) (ht : ∀ c ∈ t, P c) : ∀ c ∈ D.foresee hist t, P c := by
  intro c hc
  rcases h hist t c hc with h1 | ⟨x, h1, h2⟩ | h1
  · exact ht c h1
  · exact hh x h1 c h2
  · exact h1

theorem within_newest {D : Desk} (h : D.foresee = newestRest) (P : Char → Prop) : D.Within P := by
  intro hist t c hc
  rw [h] at hc
  unfold newestRest at hc
  split at hc
  · rename_i x hx
    exact .inr (.inl ⟨x, List.mem_reverse.mp (List.mem_of_find?_eq_some hx), List.mem_of_mem_drop hc⟩)
  · cases hc

theorem Suits.guess_alone {D : Desk} {L : Logic} (h : Suits D L) {t : List Char} (ht : AloneIn L.cfg t) : AloneIn L.cfg (D.guess t) :=
  h.within.all h.alone ht

theorem Suits.has {D : Desk} {L : Logic} (h : Suits D L) (t line : List Char) :
    occurs L.toUpper (utf8 t) (utf8 line) = D.has t line := by
  unfold occurs Desk.has
  rw [h.upper, h.upper, Bool.eq_iff_iff, infix_iff, infix_iff]
  constructor
  · exact utf8_infix
  · rintro ⟨u, v, e⟩
    exact ⟨utf8 u, utf8 v, by rw [← e, utf8_append, utf8_append]⟩

/-! ## Words -/

theorem skipSpaces_chars (C : Cfg) (f : Char → Bool) (g : Moji → Bool) (hg : ∀ c, g (unit C c) = f c) (l : List Char) :
    ((l.map (unit C)).reverse.dropWhile g).length = (dropEnd f l).length := by
  unfold dropEnd
  rw [← List.map_reverse, List.dropWhile_map, List.length_map, List.length_reverse]
  congr 2
  funext c
  exact hg c

theorem dropEnd_take (f : Char → Bool) (l : List Char) : dropEnd f l = l.take (dropEnd f l).length := by
  have h : dropEnd f l <+: l := by
    unfold dropEnd
    have := List.dropWhile_suffix f (l := l.reverse)
    have := List.reverse_prefix.mpr this
    rwa [List.reverse_reverse] at this
  exact List.prefix_iff_eq_take.mp h

/-- The quotation a character stands in, itself included. -/
def quotation (marks : List Char) (c : Char) (q : Option Char) : Option Char :=
  match q with
  | none => if c ∈ marks then some c else none
  | some m => if c = m then none else some m

theorem wordStart_cons (marks : List Char) (c : Char) (cs : List Char) (i : Nat) (start : Option Nat) (q : Option Char) :
    wordStart marks (c :: cs) i start q =
      if c = '\t' then wordStart marks cs (i + 1) start q
      else if White c ∧ quotation marks c q = none then wordStart marks cs (i + 1) none (quotation marks c q)
      else wordStart marks cs (i + 1) (start.or (some i)) (quotation marks c q) := rfl

theorem wordStart_chars {C : Cfg} {marks : List Char} (h0 : '\x00' ∉ marks) (l : List Char) (cs : List Cell)
    (hcs : cs.map (fun c => c.moji.norm) = l.map (unit C)) :
    ∀ (i : Nat) (start : Option Nat) (q : Option Char), q ≠ some '\x00' →
      wordTopLoop (marks.map Char.toNat) cs i (start.elim (-1) fun n => (n : Int)) (q.elim 0 Char.toNat) =
        (wordStart marks l i start q).elim (-1) fun n => (n : Int) := by
  induction l generalizing cs with
  | nil =>
    intro i start q _
    rw [List.map_nil, List.map_eq_nil_iff] at hcs
    subst hcs
    rfl
  | cons c l ih =>
    intro i start q hq
    cases cs with
    | nil => cases hcs
    | cons x cs =>
      rw [List.map_cons, List.map_cons] at hcs
      obtain ⟨hx, hcs⟩ := List.cons.inj hcs
      have hr : x.moji.toRune? = if c = '\t' then none else some c.toNat := by
        rw [← Moji.norm_toRune, hx, unit_toRune]
      rw [wordTopLoop, hr, wordStart_cons]
      by_cases ht : c = '\t'
      · rw [if_pos ht, if_pos ht]
        exact ih cs hcs (i + 1) start q hq
      · rw [if_neg ht, if_neg ht]
        dsimp only
        have hz : ∀ d : Char, d.toNat = 0 ↔ d = '\x00' := fun d => ⟨fun h => Char.toNat_inj.mp h, fun h => by rw [h]; rfl⟩
        -- the quotation mark behind the character
        have hmem : (marks.map Char.toNat).contains c.toNat = decide (c ∈ marks) := by
          rw [Bool.eq_iff_iff, List.contains_iff_mem, decide_eq_true_iff, List.mem_map]
          constructor
          · rintro ⟨d, hd, e⟩; rwa [← Char.toNat_inj.mp e]
          · intro h; exact ⟨c, h, rfl⟩
        generalize hq' : quotation marks c q = q'
        have hq0 : q' ≠ some '\x00' := by
          rw [← hq']
          unfold quotation
          cases q with
          | none =>
            show (if c ∈ marks then some c else none) ≠ _
            split
            · rename_i hm; intro e; cases e; exact h0 hm
            · simp
          | some m =>
            show (if c = m then none else some m) ≠ _
            split
            · simp
            · exact hq
        have e1 : (if q.elim 0 Char.toNat = 0 then (if (marks.map Char.toNat).contains c.toNat = true then c.toNat else 0)
            else if c.toNat = q.elim 0 Char.toNat then 0 else q.elim 0 Char.toNat) = q'.elim 0 Char.toNat := by
          rw [← hq', hmem]
          unfold quotation
          cases q with
          | none =>
            show (if (0 : Nat) = 0 then _ else _) = (if c ∈ marks then some c else none : Option Char).elim 0 Char.toNat
            rw [if_pos rfl]
            by_cases hm : c ∈ marks <;> simp [hm]
          | some m =>
            have hm : ¬ m.toNat = 0 := fun h => hq (by rw [(hz m).mp h])
            show (if m.toNat = 0 then _ else if c.toNat = m.toNat then 0 else m.toNat) = (if c = m then none else some m : Option Char).elim 0 Char.toNat
            rw [if_neg hm]
            by_cases hcm : c = m
            · simp [hcm]
            · rw [if_neg (fun h => hcm (Char.toNat_inj.mp h)), if_neg hcm]; rfl
        rw [e1]
        have e2 : (isSpaceRune c.toNat && q'.elim 0 Char.toNat == 0) = true ↔ White c ∧ q' = none := by
          rw [Bool.and_eq_true, isSpaceRune_iff, beq_iff_eq]
          constructor
          · rintro ⟨h1, h2⟩
            refine ⟨h1, ?_⟩
            cases q' with
            | none => rfl
            | some m => exact absurd (by rw [(hz m).mp h2]) hq0
          · rintro ⟨h1, rfl⟩; exact ⟨h1, rfl⟩
        by_cases hw : White c ∧ q' = none
        · rw [if_pos (e2.mpr hw), if_pos hw]
          exact ih cs hcs (i + 1) none q' hq0
        · rw [if_neg (fun h => hw (e2.mp h)), if_neg hw]
          have e3 : (if (start.elim (-1) fun n => (n : Int)) < 0 then (i : Int) else start.elim (-1) fun n => (n : Int)) =
              (start.or (some i)).elim (-1) fun n => (n : Int) := by
            cases start with
            | none => rfl
            | some n => exact if_neg (by show ¬ ((n : Int) < 0); omega)
          rw [e3]
          exact ih cs hcs (i + 1) _ q' hq0

end Readline
