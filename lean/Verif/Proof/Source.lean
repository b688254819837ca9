import Verif.Spec.Source
import Verif.Proof.Observe
import Verif.Proof.Utf8
import Verif.Proof.Pending
/-!
# Every character comes from somewhere
-/
namespace Readline
open Spec

variable {P : Nat → Prop}

/-! ## ASCII characters end what is before them -/

theorem decodeRune_stop (a0 : UInt8) (a : Bytes) (c : UInt8) (b : Bytes) (hc : c.toNat < 0x80) :
    decodeRune (a0 :: a ++ c :: b) = decodeRune (a0 :: a) := by
  have hn : ∀ lo hi, 0x80 ≤ lo → inRange c lo hi = false := by
    intro lo hi h; simp only [inRange, Bool.and_eq_false_iff, decide_eq_false_iff_not]; omega
  have h1 : inRange c 0x80 0xBF = false := hn _ _ (by decide)
  have h2 : ∀ x hi : Nat, inRange c (if x = 0xE0 then 0xA0 else 0x80) hi = false := by
    intro x hi; apply hn; split <;> decide
  have h3 : ∀ x hi : Nat, inRange c (if x = 0xF0 then 0x90 else 0x80) hi = false := by
    intro x hi; apply hn; split <;> decide
  match a with
  | [] => cases b with
    | nil => simp [decodeRune, h1]
    | cons d b => cases b with
      | nil => simp [decodeRune, h1, h2]
      | cons e b => simp [decodeRune, h1, h2, h3]
  | [a1] => cases b with
    | nil => simp [decodeRune, h1]
    | cons d b => simp [decodeRune, h1]
  | [a1, a2] => simp [decodeRune, h1]
  | a1 :: a2 :: a3 :: a => simp [decodeRune]

theorem decodeRune_size_le (s : Bytes) : (decodeRune s).2 ≤ s.length := by
  unfold decodeRune
  split
  · simp
  · simp only
    repeat' split
    all_goals (simp only [List.length_cons]; omega)

theorem runesOf_stop (a : Bytes) (c : UInt8) (b : Bytes) (hc : c.toNat < 0x80) :
    runesOf (a ++ c :: b) = runesOf a ++ c.toNat :: runesOf b := by
  induction a using runesOf.induct with
  | case1 =>
    rw [List.nil_append, runesOf_cons, runesOf_nil]
    have : decodeRune (c :: b) = (c.toNat, 1) := by unfold decodeRune; simp only; rw [if_pos hc]
    rw [this]; rfl
  | case2 x t ih =>
    have h := decodeRune_stop x t c b hc
    have hl := decodeRune_size_le (x :: t)
    rw [show x :: t ++ c :: b = x :: (t ++ c :: b) from rfl, runesOf_cons, runesOf_cons,
      ← show x :: t ++ c :: b = x :: (t ++ c :: b) from rfl, h, List.drop_append_of_le_length hl, ih]
    rfl

theorem over_nil : Over P [] := by intro r hr; rw [runesOf_nil] at hr; cases hr

theorem over_stop {a : Bytes} {c : UInt8} {b : Bytes} (hc : c.toNat < 0x80) :
    Over P (a ++ c :: b) ↔ Over P a ∧ P c.toNat ∧ Over P b := by
  unfold Over
  rw [runesOf_stop a c b hc]
  constructor
  · intro h
    exact ⟨fun r hr => h r (by simp [hr]), h _ (by simp), fun r hr => h r (by simp [hr])⟩
  · rintro ⟨h1, h2, h3⟩ r hr
    rcases List.mem_append.mp hr with hr | hr
    · exact h1 r hr
    · rcases List.mem_cons.mp hr with rfl | hr
      · exact h2
      · exact h3 r hr

theorem over_append {a b : Bytes} (ha : ValidUtf8 a) : Over P (a ++ b) ↔ Over P a ∧ Over P b := by
  have : runesOf (a ++ b) = runesOf a ++ runesOf b := by
    obtain ⟨rs, hrs, rfl⟩ := validUtf8_iff.mp ha
    rw [runesOf_encodeRunes hrs]
    induction rs with
    | nil => rfl
    | cons r rs ih =>
      rw [encodeRunes_cons, List.append_assoc, runesOf_encode_append (hrs r (by simp)),
        ih (fun x hx => hrs x (by simp [hx])) (validUtf8_encodeRunes fun x hx => hrs x (by simp [hx]))]
      rfl
  unfold Over
  rw [this]
  simp only [List.mem_append]
  exact ⟨fun h => ⟨fun r hr => h r (Or.inl hr), fun r hr => h r (Or.inr hr)⟩,
    fun h r hr => hr.elim (h.1 r) (h.2 r)⟩

theorem Spec.Over.mono {Q : Nat → Prop} {t : Bytes} (h : Over P t) (hPQ : ∀ r, P r → Q r) : Over Q t :=
  fun r hr => hPQ r (h r hr)

/-! ## Yanked text -/

theorem over_trim {t : Bytes} (h : Over P t) : Over P (trimRightCRLFNUL t) := by
  unfold trimRightCRLFNUL
  have key : ∀ u : Bytes, Over P u.reverse →
      Over P (u.dropWhile (fun b => b == 0x0D || b == 0x0A || b == 0)).reverse := by
    intro u hu
    induction u with
    | nil => exact hu
    | cons x u ih =>
      rw [List.dropWhile_cons]
      split
      · rename_i hx
        apply ih
        rw [List.reverse_cons] at hu
        have hx' : x.toNat < 0x80 := by
          simp only [Bool.or_eq_true, beq_iff_eq] at hx
          rcases hx with (rfl | rfl) | rfl <;> decide
        exact ((over_stop (b := []) hx').mp hu).1
      · exact hu
  have := key t.reverse (by rwa [List.reverse_reverse])
  exact this

def Ascii (t : Bytes) : Prop := ∀ b ∈ t, b.toNat < 0x80

theorem over_ascii {a m b : Bytes} (hm : Ascii m) (hne : m ≠ []) :
    Over P (a ++ m ++ b) ↔ Over P a ∧ (∀ c ∈ m, P c.toNat) ∧ Over P b := by
  induction m generalizing a with
  | nil => exact absurd rfl hne
  | cons c m ih =>
    have hc := hm c (by simp)
    have hm' : Ascii m := fun b hb => hm b (by simp [hb])
    rw [List.append_assoc, List.cons_append, over_stop hc]
    by_cases hn : m = []
    · subst hn; simp
    · have := ih (a := []) hm' hn
      rw [List.nil_append] at this
      rw [this]
      simp only [List.mem_cons, forall_eq_or_imp, and_assoc]
      constructor
      · rintro ⟨h1, h2, -, h4, h5⟩; exact ⟨h1, h2, h4, h5⟩
      · rintro ⟨h1, h2, h4, h5⟩; exact ⟨h1, h2, over_nil, h4, h5⟩

theorem over_replaceAll {old new : Bytes} (ho : Ascii old) (hone : old ≠ []) (hn : Ascii new) (hnne : new ≠ [])
    (hP : (∀ c ∈ old, P c.toNat) → ∀ c ∈ new, P c.toNat) (n : Nat) (a t : Bytes) (h : Over P (a ++ t)) :
    Over P (a ++ replaceAllLoop old new n t) := by
  induction n generalizing a t with
  | zero => exact h
  | succ n ih =>
    cases t with
    | nil => exact h
    | cons b t =>
      rw [replaceAllLoop]
      split
      · rename_i hp
        obtain ⟨t', ht⟩ := List.isPrefixOf_iff_prefix.mp hp
        rw [← ht, ← List.append_assoc, over_ascii ho hone] at h
        obtain ⟨h1, h2, h3⟩ := h
        rw [← ht, List.drop_left, ← List.append_assoc, over_ascii hn hnne]
        exact ⟨h1, hP h2, by simpa using ih [] t' (by simpa using h3)⟩
      · have := ih (a ++ [b]) t (by simpa using h)
        simpa using this

theorem over_quote {t : Bytes} (h : Over P t) (hq : P 0x22) : Over P (quoteText t) := by
  unfold quoteText
  split
  · dsimp only
    unfold replaceAll
    have h1 : Over P (replaceAllLoop [0x22] [0x22, 0x22] t.length t) := by
      simpa using over_replaceAll (P := P) (old := [0x22]) (new := [0x22, 0x22]) (by intro b hb; simp at hb; subst hb; decide)
        (by simp) (by intro b hb; simp at hb; subst hb; decide) (by simp)
        (fun _ c hc => by simp at hc; subst hc; exact hq) t.length [] t (by simpa using h)
    have h2 : Over P ([0x22] ++ replaceAllLoop [0x22] [0x22, 0x22] t.length t ++ [0x22]) := by
      rw [over_stop (by decide)]
      exact ⟨(over_stop (a := []) (by decide)).mpr ⟨over_nil, hq, h1⟩, hq, over_nil⟩
    simpa using over_replaceAll (P := P) (old := [0x0D, 0x0A]) (new := [0x22, 0x0D, 0x0A, 0x22])
      (by intro b hb; simp at hb; rcases hb with rfl | rfl <;> decide) (by simp)
      (by intro b hb; simp at hb; rcases hb with rfl | rfl | rfl | rfl <;> decide) (by simp)
      (fun ho c hc => by
        simp only [List.mem_cons, List.not_mem_nil, or_false] at hc
        rcases hc with rfl | rfl | rfl | rfl
        · exact hq
        · exact ho 0x0D (by simp)
        · exact ho 0x0A (by simp)
        · exact hq) _ [] _ (by simpa using h2)
  · exact h

/-! ## Units -/

/-- Every unit of the line is over `P`. -/
def OverL (P : Nat → Prop) (l : List Moji) : Prop := ∀ m ∈ l, Over P m.write

theorem Built.valid {C : Cfg} {m : Moji} (h : Built C m) : ValidUtf8 m.write := by
  induction h with
  | base h => rw [Moji.norm_write, rune2moji_write]; exact validUtf8_encodeRune _
  | zwj _ _ _ ih => exact ValidUtf8.append (ValidUtf8.append ih (validUtf8_encodeRune _)) (validUtf8_encodeRune _)
  | vari _ _ _ _ ih => exact ValidUtf8.append ih (validUtf8_encodeRune _)
  | modi _ _ _ _ _ ih => exact ValidUtf8.append ih (validUtf8_encodeRune _)

theorem lineText_cons (m : Moji) (l : List Moji) : lineText (m :: l) = m.write ++ lineText l := by
  simp [lineText]

theorem lineText_valid {C : Cfg} {l : List Moji} (h : ∀ m ∈ l, Built C m) : ValidUtf8 (lineText l) := by
  induction l with
  | nil => exact ValidUtf8.nil
  | cons m l ih =>
    rw [lineText_cons]
    exact ValidUtf8.append (h m (by simp)).valid (ih fun x hx => h x (by simp [hx]))

theorem over_lineText {C : Cfg} {l : List Moji} (hb : ∀ m ∈ l, Built C m) :
    Over P (lineText l) ↔ OverL P l := by
  induction l with
  | nil => exact ⟨fun _ m hm => (by cases hm), fun _ => over_nil⟩
  | cons m l ih =>
    rw [lineText_cons, over_append (hb m (by simp)).valid, ih fun x hx => hb x (by simp [hx])]
    constructor
    · rintro ⟨h1, h2⟩ x hx
      rcases List.mem_cons.mp hx with rfl | hx
      · exact h1
      · exact h2 x hx
    · intro h; exact ⟨h m (by simp), fun x hx => h x (by simp [hx])⟩

/-- Cutting and writing back adds at most U+200D and U+FFFD, and only with join controls. -/
theorem rejoin_over {z : Bool} {rs : List Nat} (h : ∀ r ∈ rs, P r)
    (hj : z = true → P 0x200C ∨ P 0x200D → P 0x200D ∧ P 0xFFFD) (m : JoinMode)
    (hm : m = .joining → z = true ∧ (P 0x200C ∨ P 0x200D)) : ∀ r ∈ rejoin z m rs, P r := by
  induction rs generalizing m with
  | nil =>
    cases m with
    | joining =>
      intro r hr
      simp only [rejoin, List.mem_singleton] at hr
      subst hr
      exact (hj (hm rfl).1 (hm rfl).2).2
    | fresh | started => intro r hr; simp [rejoin] at hr
  | cons x rs ih =>
    have h' : ∀ r ∈ rs, P r := fun r hr => h r (by simp [hr])
    have hx : P x := h x (by simp)
    have cons : ∀ y l, P y → (∀ r ∈ l, P r) → ∀ r ∈ y :: l, P r := by
      intro y l hy hl r hr
      rcases List.mem_cons.mp hr with rfl | hr
      · exact hy
      · exact hl r hr
    cases m with
    | joining | fresh =>
      rw [rejoin]
      exact cons _ _ hx (ih h' _ (by simp))
    | started =>
      rw [rejoin]
      split
      · rename_i hc
        have hz : P 0x200C ∨ P 0x200D := by rcases hc.2 with rfl | rfl <;> simp [hx]
        exact cons _ _ (hj hc.1 hz).1 (ih h' _ fun _ => ⟨hc.1, hz⟩)
      · exact cons _ _ hx (ih h' _ (by simp))

theorem mojisText_over {C : Cfg} {t : Bytes} (h : Over P t)
    (hj : C.zwjOk = true → P 0x200C ∨ P 0x200D → P 0x200D ∧ P 0xFFFD) : Over P (mojisText (stringToMoji C t)) := by
  unfold Over
  rw [stringToMoji_text]
  rw [runesOf_encodeRunes (rejoin_over (runesOf_isScalar t) (fun _ _ => by decide) _ (by simp))]
  exact rejoin_over h hj .fresh (by simp)

theorem lineText_map_norm (l : List Moji) : lineText (l.map Moji.norm) = lineText l := by
  induction l with
  | nil => rfl
  | cons m l ih => rw [List.map_cons, lineText_cons, lineText_cons, ih, Moji.norm_write]

theorem segs_over {C : Cfg} {t : Bytes} (h : Over P t)
    (hj : C.zwjOk = true → P 0x200C ∨ P 0x200D → P 0x200D ∧ P 0xFFFD) : OverL P (segs C t) := by
  rw [← over_lineText (segs_built C t), segs, lineText_map_norm]
  exact mojisText_over h hj

/-! ## The default predictor -/

theorem over_predict {history : List Bytes} {t : Bytes} (hh : ∀ h ∈ history, Over P h) (ht : ValidUtf8 t) :
    Over P (predictByHistory history t) := by
  unfold predictByHistory
  have : ∀ h ∈ history.reverse, Over P h := fun h hm => hh h (List.mem_reverse.mp hm)
  clear hh
  generalize history.reverse = l at *
  induction l with
  | nil => exact over_nil
  | cons x l ih =>
    rw [predictLoop]
    split
    · rename_i hp
      obtain ⟨r, hr⟩ := List.isPrefixOf_iff_prefix.mp hp
      have hx := this x (by simp)
      rw [← hr, List.drop_left]
      rw [← hr] at hx
      exact ((over_append ht).mp hx).2
    · exact ih fun h hm => this h (by simp [hm])

/-! ## The commands -/

/-- The settings of the editor without a screen do not bring in other characters. -/
structure Ed.Src (P : Nat → Prop) (L : Logic) : Prop where
  history : ∀ h ∈ L.history, Over P h
  clipSet : ∀ c t u, L.clipSet c t = some u → u = t ∨ c = some u ∨ Over P u
  predict : ∀ t, ValidUtf8 t → Over P t → Over P (L.predict t)
  joined : L.cfg.zwjOk = true → P 0x200C ∨ P 0x200D → P 0x200D ∧ P 0xFFFD

/-- A key that may be typed. -/
structure Ed.Good (P : Nat → Prop) (L : Logic) (k : Bytes) : Prop where
  over : Over P (stripAlt k)
  valid : areZeroWidthJoin L.cfg (stripAlt k) = true → ValidUtf8 (stripAlt k)

/-- All texts of the state are over `P`. -/
structure Ed.From (P : Nat → Prop) (L : Logic) (e : Ed) : Prop where
  built : AllBuilt L.cfg e.line
  line : OverL P e.line
  suffix : Over P (lineText e.suffixList)
  undoes : ∀ u ∈ e.undoes, Over P u.text
  pending : Over P e.pending
  whole : ValidUtf8 e.pending
  modHist : ∀ i t, e.modHist i = some t → Over P t
  clip : ∀ t, e.clip = some t → Over P t

namespace Ed
variable {L : Logic} {e : Ed}

theorem OverL.take {l : List Moji} (h : OverL P l) (n : Nat) : OverL P (l.take n) :=
  fun m hm => h m (List.mem_of_mem_take hm)
theorem OverL.drop {l : List Moji} (h : OverL P l) (n : Nat) : OverL P (l.drop n) :=
  fun m hm => h m (List.mem_of_mem_drop hm)
theorem OverL.append {l r : List Moji} (h : OverL P l) (h' : OverL P r) : OverL P (l ++ r) := by
  intro m hm
  rcases List.mem_append.mp hm with hm | hm
  · exact h m hm
  · exact h' m hm

theorem From.text (h : From P L e) : Over P e.text := (over_lineText h.built).mpr h.line

theorem From.cut (h : From P L e) {l : List Moji} (hl : ∀ m ∈ l, m ∈ e.line) : Over P (lineText l) :=
  (over_lineText fun m hm => h.built m (hl m hm)).mpr fun m hm => h.line m (hl m hm)

theorem From.predict (hS : Src P L) (h : From P L e) : From P L (predict L e) := by
  unfold Ed.predict
  split
  · exact h
  · split
    · exact ⟨h.built, h.line, over_nil, h.undoes, h.pending, h.whole, h.modHist, h.clip⟩
    · exact ⟨h.built, h.line, mojisText_over (hS.predict _ (lineText_valid h.built) h.text) hS.joined, h.undoes, h.pending, h.whole, h.modHist, h.clip⟩

theorem From.insert (hS : Src P L) (h : From P L e) (pos : Int) {t : Bytes} (ht : Over P t) :
    From P L (e.insert L pos t) :=
  ⟨h.built.insert _ _, (OverL.append (OverL.append (OverL.take h.line _) (segs_over ht hS.joined)) (OverL.drop h.line _)),
    h.suffix, fun u hu => by
      rcases List.mem_cons.mp hu with rfl | hu
      · exact over_nil
      · exact h.undoes u hu, h.pending, h.whole, h.modHist, h.clip⟩

theorem From.delete (h : From P L e) (pos n : Int) : From P L (e.delete pos n) := by
  unfold Ed.delete
  split
  · exact h
  · refine ⟨(h.built.take _).append (h.built.drop _), OverL.append (OverL.take h.line _) (OverL.drop h.line _),
      h.suffix, fun u hu => ?_, h.pending, h.whole, h.modHist, h.clip⟩
    rcases List.mem_cons.mp hu with rfl | hu
    · exact h.cut fun m hm => List.mem_of_mem_drop (List.mem_of_mem_take hm)
    · exact h.undoes u hu

theorem From.cursor (h : From P L e) (c : Int) : From P L { e with cursor := c } :=
  ⟨h.built, h.line, h.suffix, h.undoes, h.pending, h.whole, h.modHist, h.clip⟩

theorem joinUndoes_over {us : List Undo} (h : ∀ u ∈ us, Over P u.text) : ∀ u ∈ joinUndoes us, Over P u.text := by
  unfold joinUndoes
  split
  · split
    · exact h
    split
    · exact h
    split
    · exact h
    · intro u hu
      rcases List.mem_cons.mp hu with rfl | hu
      · dsimp only
        split
        · exact h _ (by simp)
        · exact h _ (by simp)
      · exact h u (by simp [hu])
  · exact h

theorem From.replace (hS : Src P L) (h : From P L e) (pos : Int) {t : Bytes} (ht : Over P t) :
    From P L (e.replace L pos t) := by
  unfold Ed.replace
  have h1 := (h.delete pos (e.cursor - pos)).insert hS pos ht
  exact From.predict hS ⟨h1.built, h1.line, h1.suffix, joinUndoes_over h1.undoes, h1.pending, h1.whole, h1.modHist, h1.clip⟩

theorem From.backspace (hS : Src P L) (h : From P L e) : From P L (e.backspace L) := by
  unfold Ed.backspace
  split
  · exact From.predict hS (From.delete (h.cursor _) _ _)
  · exact h

theorem From.typeTail (hS : Src P L) (h : From P L e) {t : Bytes} (ht : Over P t) : From P L (e.typeTail L t) :=
  From.predict hS ((h.insert hS e.cursor ht).cursor _)

theorem From.type (hS : Src P L) (h : From P L e) {k : Bytes} (hk : Good P L k) : From P L (e.type L k) := by
  have hleft : ∀ n : Nat, ValidUtf8 ((e.line[n]?).elim [] Moji.write) ∧ Over P ((e.line[n]?).elim [] Moji.write) := by
    intro n
    cases hn : e.line[n]? with
    | none => exact ⟨ValidUtf8.nil, over_nil⟩
    | some m => exact ⟨(h.built m (List.mem_of_getElem? hn)).valid, h.line m (List.mem_of_getElem? hn)⟩
  unfold Ed.type
  dsimp only
  obtain ⟨v, o⟩ := hleft (e.cursor - 1).toNat
  split
  · rename_i hz
    have hzw : areZeroWidthJoin L.cfg (stripAlt k) = true := by
      rw [Bool.and_eq_true] at hz; exact hz.1
    apply From.backspace hS
    exact ⟨h.built, h.line, h.suffix, h.undoes, (over_append v).mpr ⟨o, hk.over⟩, ValidUtf8.append v (hk.valid hzw),
      h.modHist, h.clip⟩
  · split
    · exact (h.backspace hS).typeTail hS ((over_append v).mpr ⟨o, hk.over⟩)
    · split
      · apply From.typeTail hS
        · exact ⟨h.built, h.line, h.suffix, h.undoes, over_nil, ValidUtf8.nil, h.modHist, h.clip⟩
        · exact (over_append h.whole).mpr ⟨h.pending, hk.over⟩
      · exact h.typeTail hS hk.over

theorem From.clipSet (hS : Src P L) (h : From P L e) {t : Bytes} (ht : Over P t) :
    From P L { e with clip := L.clipSet e.clip t } :=
  ⟨h.built, h.line, h.suffix, h.undoes, h.pending, h.whole, h.modHist, fun u hu => by
    rcases hS.clipSet _ _ _ hu with rfl | hc | ho
    · exact ht
    · exact h.clip u hc
    · exact ho⟩

theorem From.killWhole (h : From P L e) : From P L (killWhole e) :=
  ⟨fun m hm => (by cases hm), fun m hm => (by cases hm), h.suffix, fun u hu => by
    rcases List.mem_cons.mp hu with rfl | hu
    · exact h.text
    · exact h.undoes u hu, h.pending, h.whole, h.modHist, h.clip⟩

theorem From.getHist (hS : Src P L) (h : From P L e) : Over P (getHist L e) := by
  unfold Ed.getHist
  split
  · rename_i ht; exact h.modHist _ _ ht
  · split
    · exact over_nil
    · unfold histAt
      rw [List.getD_eq_getElem?_getD]
      cases hx : L.history[e.histPtr.toNat]? with
      | none => exact over_nil
      | some x => exact hS.history x (List.mem_of_getElem? hx)

theorem histAt_over (hS : Src P L) (i : Int) : Over P (histAt L i) := by
  unfold histAt
  rw [List.getD_eq_getElem?_getD]
  cases hx : L.history[i.toNat]? with
  | none => exact over_nil
  | some x => exact hS.history x (List.mem_of_getElem? hx)

theorem From.histPtr (h : From P L e) (c : Int) : From P L { e with histPtr := c } :=
  ⟨h.built, h.line, h.suffix, h.undoes, h.pending, h.whole, h.modHist, h.clip⟩

theorem From.showHist (hS : Src P L) (h : From P L e) : From P L (e.showHist L) := by
  unfold Ed.showHist
  dsimp only
  split
  · exact (h.killWhole.insert hS 0 (h.killWhole.getHist hS)).cursor _
  · exact h.killWhole

theorem From.saveHist (h : From P L e) : From P L (e.saveHist L) := by
  unfold Ed.saveHist
  split
  · exact h
  · refine ⟨h.built, h.line, h.suffix, h.undoes, h.pending, h.whole, fun i t ht => ?_, h.clip⟩
    dsimp only at ht
    split at ht
    · injection ht with ht; subst ht; exact h.text
    · exact h.modHist i t ht

theorem From.undo (hS : Src P L) (h : From P L e) : From P L (e.undo L) := by
  unfold Ed.undo
  split
  · exact h
  · rename_i u rest hu
    dsimp only
    have hul : Over P u.text := h.undoes u (by rw [hu]; simp)
    have hrest : ∀ u ∈ rest, Over P u.text := fun x hx => h.undoes x (by rw [hu]; simp [hx])
    apply From.predict hS
    have hl : AllBuilt L.cfg (if u.del > 0 then e.line.take u.pos.toNat ++ e.line.drop (u.pos.toNat + u.del) else e.line) := by
      split
      · exact (h.built.take _).append (h.built.drop _)
      · exact h.built
    have hl' : OverL P (if u.del > 0 then e.line.take u.pos.toNat ++ e.line.drop (u.pos.toNat + u.del) else e.line) := by
      split
      · exact OverL.append (OverL.take h.line _) (OverL.drop h.line _)
      · exact h.line
    split
    · exact ⟨((hl.take _).append (allBuilt_segs _ _)).append (hl.drop _),
        OverL.append (OverL.append (OverL.take hl' _) (segs_over hul hS.joined)) (OverL.drop hl' _),
        h.suffix, hrest, h.pending, h.whole, h.modHist, h.clip⟩
    · exact ⟨hl, hl', h.suffix, hrest, h.pending, h.whole, h.modHist, h.clip⟩

theorem From.swap (h : From P L e) : From P L e.swap := by
  unfold Ed.swap
  split
  · split
    · exact h
    · refine ⟨fun m hm => h.built m (mem_swapAt hm), fun m hm => h.line m (mem_swapAt hm), h.suffix, fun u hu => ?_,
        h.pending, h.whole, h.modHist, h.clip⟩
      rcases List.mem_cons.mp hu with rfl | hu
      · exact h.cut fun m hm => List.mem_of_mem_drop hm
      · exact h.undoes u hu
  · split
    · exact h
    · refine ⟨fun m hm => h.built m (mem_swapAt hm), fun m hm => h.line m (mem_swapAt hm), h.suffix, fun u hu => ?_,
        h.pending, h.whole, h.modHist, h.clip⟩
      rcases List.mem_cons.mp hu with rfl | hu
      · exact h.cut fun m hm => List.mem_of_mem_drop (List.mem_of_mem_take hm)
      · exact h.undoes u hu

theorem searchUpdate_over (hS : Src P L) (it : ISt) (n : Nat) : Over P (searchUpdate L it n).found := by
  induction n with
  | zero => exact over_nil
  | succ n ih =>
    unfold searchUpdate
    split
    · exact over_nil
    · rename_i line hl
      split
      · exact hS.history line (List.mem_of_getElem? hl)
      · exact ih

theorem searchPrev_over (hS : Src P L) {it : ISt} (h : Over P it.found) (n : Nat) (i : Int) : Over P (searchPrev L it n i).found := by
  induction n generalizing i with
  | zero => exact h
  | succ n ih =>
    unfold searchPrev
    dsimp only
    generalize (if i < 0 then histLen L - 1 else i) = j
    split
    · exact h
    split
    · exact histAt_over hS _
    · exact ih _

theorem searchNext_over (hS : Src P L) {it : ISt} (h : Over P it.found) (n : Nat) (i : Int) : Over P (searchNext L it n i).found := by
  induction n generalizing i with
  | zero => exact h
  | succ n ih =>
    unfold searchNext
    split
    · exact h
    split
    · exact h
    split
    · exact histAt_over hS _
    · exact ih _

theorem From.getKey (h : From P L e) : From P L (getKey e).2 := by
  unfold Ed.getKey
  split
  all_goals exact ⟨h.built, h.line, h.suffix, h.undoes, h.pending, h.whole, h.modHist, h.clip⟩

theorem getKey_mem {k : Bytes} {e' : Ed} (h : getKey e = (some k, e')) : .key k ∈ e.input := by
  unfold Ed.getKey at h
  split at h
  · rename_i k' rest hp
    have := (Prod.mk.inj h).1
    injection this with this
    subst this
    exact popKey_mem hp
  · cases (Prod.mk.inj h).1
  · cases (Prod.mk.inj h).1

theorem From.searchLoop (hS : Src P L) (n : Nat) (it : ISt) (hit : Over P it.found) (h : From P L e) :
    From P L (searchLoop L n it e) := by
  induction n generalizing it e with
  | zero => exact h
  | succ n ih =>
    unfold Ed.searchLoop
    have h1 := h.getKey
    cases hk : Ed.getKey e with
    | mk k e' =>
      rw [hk] at h1
      dsimp only at h1
      cases k with
      | none => exact h1
      | some key =>
        dsimp only
        split
        · exact ih _ (searchUpdate_over hS _ _) h1
        split
        · exact From.replace hS (From.killWhole h1) 0 hit
        split
        · exact h1
        split
        · exact ih _ (searchPrev_over hS hit _ _) h1
        split
        · exact ih _ (searchNext_over hS hit _ _) h1
        split
        · exact ih _ hit h1
        · exact ih _ (searchUpdate_over hS _ _) h1

/-- What the command may bring in. -/
structure Allowed (P : Nat → Prop) (L : Logic) (e : Ed) (c : Cmd) : Prop where
  self : ∀ k, c = .selfInsert k → Good P L k
  quoted : c = .quotedInsert → ∀ k, .key k ∈ e.input → Good P L k
  quotes : c = .yankWithQuote → P 0x22
  completion : ∀ K, c = .completion K → ∀ texts pos t,
    completionOf K.uni K.completer K.postfix_ texts = .insert pos t → Over P t

theorem From.call (hS : Src P L) {c : Cmd} (ha : Allowed P L e c) (h : From P L e) : From P L (Ed.call L c e).1 := by
  cases c with
  | acceptLine | custom => exact h
  | endOfLine | forwardWord => exact h.cursor _
  | interrupt =>
    exact ⟨fun m hm => (by cases hm), fun m hm => (by cases hm), h.suffix, fun u hu => (by cases hu), h.pending, h.whole,
      h.modHist, h.clip⟩
  | beginningOfLine | backwardWord => exact From.predict hS (h.cursor _)
  | clearScreen | repaintOnNewline => exact From.predict hS h
  | backwardChar =>
    simp only [Ed.call]
    split
    · exact h
    · exact From.predict hS (h.cursor _)
  | forwardChar =>
    simp only [Ed.call]
    split
    · split
      · exact h.replace hS _ h.suffix
      · exact h
    · exact h.cursor _
  | backwardDeleteChar => exact h.backspace hS
  | deleteChar => exact From.predict hS (h.delete _ _)
  | deleteOrAbort =>
    simp only [Ed.call]
    split
    · exact From.predict hS (h.delete _ _)
    · exact h
  | killLine =>
    have ht : Over P (lineText (e.line.drop e.cursor.toNat)) := h.cut fun m hm => List.mem_of_mem_drop hm
    have h1 := h.clipSet hS ht
    refine ⟨h.built.take _, OverL.take h.line _, h.suffix, fun u hu => ?_, h.pending, h.whole, h.modHist, h1.clip⟩
    rcases List.mem_cons.mp hu with rfl | hu
    · exact ht
    · exact h.undoes u hu
  | killWholeLine => exact h.killWhole
  | unixWordRubout =>
    refine From.predict hS (From.cursor (From.delete (h.clipSet hS ?_) _ _) _)
    exact h.cut fun m hm => List.mem_of_mem_take (List.mem_of_mem_drop hm)
  | unixLineDiscard =>
    refine From.predict hS (From.cursor (From.delete (h.clipSet hS ?_) _ _) _)
    exact h.cut fun m hm => List.mem_of_mem_take hm
  | quotedInsert =>
    simp only [Ed.call]
    have h1 := h.getKey
    cases hk : Ed.getKey e with
    | mk k e' =>
      rw [hk] at h1
      cases k with
      | none => exact h1
      | some k => exact From.type hS h1 (ha.quoted rfl k (getKey_mem hk))
  | yank =>
    simp only [Ed.call]
    split
    · exact h
    · rename_i t ht; exact h.replace hS _ (over_trim (h.clip t ht))
  | yankWithQuote =>
    simp only [Ed.call]
    split
    · exact h
    · rename_i t ht; exact h.replace hS _ (over_quote (h.clip t ht) (ha.quotes rfl))
  | swapChar => exact h.swap
  | undo => exact h.undo hS
  | previousHistory =>
    simp only [Ed.call, prevHist]
    split
    · exact h
    · split
      · exact h
      · apply From.showHist hS
        apply From.histPtr
        apply From.saveHist
        split
        · exact h.histPtr _
        · exact h
  | nextHistory =>
    simp only [Ed.call, nextHist]
    split
    · exact h
    · split
      · exact h
      · exact From.showHist hS (From.histPtr h.saveHist _)
  | isearchBackward => exact From.searchLoop hS _ _ over_nil h
  | selfInsert k => exact h.type hS (ha.self k rfl)
  | completion K =>
    show From P L (Ed.complete L K e)
    unfold Ed.complete
    split
    · exact h
    · exact h
    · split
      · exact From.predict hS h
      · exact h
    · rename_i pos t ht
      exact h.replace hS _ (ha.completion K rfl _ _ _ ht)

end Ed

/-! ## Sessions -/

variable {E : Env} {w : World} {s : St}

theorem inserted_eq (k : Bytes) : inserted k = stripAlt k := by
  unfold inserted stripAlt; rfl

theorem Spec.Sources.src (h : Sources P E w) : Ed.Src P E.logic := by
  refine ⟨h.history, h.clipSet, fun t hv ht => ?_, h.joined⟩
  show Over P (E.predict t)
  unfold Env.predict
  cases hp : E.predictor with
  | none => exact over_predict h.history hv
  | some f => exact h.predict f hp t hv ht

theorem Spec.Sources.good (h : Sources P E w) {k : Bytes} (hk : FromKey E w k) : Ed.Good P E.logic k := by
  refine ⟨?_, fun hz => ?_⟩
  · rw [← inserted_eq]; exact h.keys k hk
  · rw [← inserted_eq] at hz ⊢
    simp only [areZeroWidthJoin, Bool.and_eq_true, isZeroWidthJoin_iff] at hz
    exact h.whole hz.1 k hk hz.2.2

theorem Spec.Sources.allowed (h : Sources P E w) {e : Ed} {q : Bytes} (hq : .key q ∈ w.input)
    (hi : ∀ ev ∈ e.input, ev ∈ w.input) : Ed.Allowed P E.logic e (lookupCommand E q) where
  self _ hk := h.good (Or.inl ⟨q, hq, hk⟩)
  quoted hc _ hk := h.good (Or.inr ⟨⟨q, hq, hc⟩, hi _ hk⟩)
  quotes hc := h.quotes q hq hc
  completion K hc := h.completion q K hq hc

/-- All texts of all states of a session are over `P`. -/
theorem reachable_from (hb : BuiltinKeys E) (hs : Sources P E w) (h : Reachable E w s) :
    Ed.From P E.logic s.ed := by
  induction h with
  | start h =>
    rw [(startSt_ed h).1]
    refine Ed.From.predict hs.src ⟨segs_built _ _, segs_over hs.default hs.joined, over_nil, fun u hu => ?_, over_nil,
      ValidUtf8.nil, fun i t ht => (by cases ht), hs.clip⟩
    rw [List.mem_singleton] at hu
    subst hu; exact over_nil
  | @step s s' hr h ih =>
    have hin := reachable_input hb hr
    have next : ∀ rest, Ed.From P E.logic { s.ed with input := rest } := fun rest =>
      ⟨ih.built, ih.line, ih.suffix, ih.undoes, ih.pending, ih.whole, ih.modHist, ih.clip⟩
    rcases step_cases h with ⟨n, rest, hi⟩ | ⟨k, rest, hi⟩
    · rw [(step_resize_ed hi h).2]
      exact Ed.From.predict hs.src (next rest)
    · have hk : .key k ∈ w.input := hin.subset (by rw [hi]; simp)
      have ha := hs.allowed (e := { s.ed with input := rest }) hk
        fun ev hev => hin.subset (by rw [hi]; exact List.mem_cons_of_mem _ hev)
      have hc := Ed.From.call hs.src ha (next rest)
      obtain ⟨h1, h2⟩ := step_key_ed hi rfl (BuiltinKeys.builtin hb k) h
      by_cases hx : (Ed.call E.logic (lookupCommand E k) { s.ed with input := rest }).2 = .cont
      · rcases (h1 hx).2 with he | ⟨-, he⟩
        · rw [he]; exact hc
        · rw [he]; exact Ed.From.predict hs.src hc
      · have := (h2 hx).1
        simp at this

/-- The result of a session is over `P`. -/
theorem result_from (hb : BuiltinKeys E) (hs : Sources P E w) {p : St × RLRes} (h : readLine E w = .ok p) :
    Over P p.2.text ∧ Ed.From P E.logic p.1.ed := by
  obtain ⟨s, hr, hst⟩ := readLine_reachable h
  have ih := reachable_from hb hs hr
  have hin := reachable_input hb hr
  have next : ∀ rest, Ed.From P E.logic { s.ed with input := rest } := fun rest =>
    ⟨ih.built, ih.line, ih.suffix, ih.undoes, ih.pending, ih.whole, ih.modHist, ih.clip⟩
  cases hi : s.input with
  | nil =>
    rw [step, hi] at hst
    injection hst with hst
    obtain ⟨g1, g2⟩ := Prod.mk.inj hst
    injection g2 with g2
    rw [← g1, ← g2]
    exact ⟨over_nil, ih⟩
  | cons ev rest =>
    cases ev with
    | err e =>
      rw [step, hi] at hst
      injection hst with hst
      obtain ⟨g1, g2⟩ := Prod.mk.inj hst
      injection g2 with g2
      rw [← g1, ← g2]
      exact ⟨over_nil, next rest⟩
    | resize n => exact absurd (step_resize_ed hi hst).1 (by simp)
    | key k =>
      have hk : .key k ∈ w.input := hin.subset (by rw [hi]; simp)
      have ha := hs.allowed (e := { s.ed with input := rest }) hk
        fun ev hev => hin.subset (by rw [hi]; exact List.mem_cons_of_mem _ hev)
      have hc := Ed.From.call hs.src ha (next rest)
      obtain ⟨h1, h2⟩ := step_key_ed hi rfl (BuiltinKeys.builtin hb k) hst
      by_cases hx : (Ed.call E.logic (lookupCommand E k) { s.ed with input := rest }).2 = .cont
      · exact absurd (h1 hx).1 (by simp)
      · obtain ⟨g1, g2⟩ := h2 hx
        injection g1 with g1
        rw [g1, g2]
        exact ⟨hc.text, hc.built, hc.line, over_nil, hc.undoes, hc.pending, hc.whole, hc.modHist, hc.clip⟩

end Readline
