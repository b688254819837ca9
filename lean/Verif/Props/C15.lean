import Verif.Proof.Word
import Verif.Proof.Carry
import Verif.Spec.Example
/-!
# C15: CurrentWord and UnixWordRubout respect quotes and touch only the word

`Spec.WordAt` (Spec/Word.lean) says which part of a text is the word at its end; there is only one
(`Spec.WordAt.unique`).

`C15_currentWord_partial`: CurrentWord returns exactly that word.  `C15_rubout_partial`:
UnixWordRubout deletes exactly the word before the cursor and the white space after it, and offers
it to the clipboard.  Both for lines that are plain characters without tabs left of the cursor.
`C15_currentWord`, `C15_rubout` say for all lines what happens (`Spec.UnitWord`): tabs and joined characters count
neither as white space nor as characters, and a word starts with a character.

The full statement is false: a tab does not end a word (`C15_refuted_tab`), and a joined character
at the start of a word is not taken for part of it (`C15_refuted_joined`).
-/
namespace Readline
open Spec

theorem openQuote_append (marks : List Nat) (a b : List Char) (q : Option Char) :
    openQuote marks (a ++ b) q = openQuote marks b (openQuote marks a q) := by
  induction a generalizing q with
  | nil => rfl
  | cons c a ih =>
    cases q <;> simp only [List.cons_append, openQuote] <;> exact ih _

/-- The quotation mark as the editor stores it. -/
def markOf (q : Option Char) : Rune := q.elim 0 Char.toNat

theorem markOf_eq_zero {marks : List Nat} (h0 : 0 ∉ marks) {p : List Char} :
    markOf (openQuote marks p none) = 0 ↔ openQuote marks p none = none := by
  have key : ∀ (p : List Char) (q : Option Char), (∀ c, q = some c → c.toNat ≠ 0) →
      ∀ c, openQuote marks p q = some c → c.toNat ≠ 0 := by
    intro p
    induction p with
    | nil => intro q hq c hc; exact hq c hc
    | cons x p ih =>
      intro q hq
      cases q with
      | none =>
        simp only [openQuote]
        apply ih
        intro c hc
        split at hc
        · rename_i hx
          cases hc
          intro h
          rw [h] at hx
          exact h0 hx
        · cases hc
      | some y =>
        simp only [openQuote]
        apply ih
        intro c hc
        split at hc
        · cases hc
        · cases hc
          exact hq _ rfl
  constructor
  · intro h
    cases hq : openQuote marks p none with
    | none => rfl
    | some c =>
      rw [hq] at h
      exact absurd h (key p none (by simp) c hq)
  · intro h; rw [h]; rfl

theorem char_toNat_inj {a b : Char} (h : a.toNat = b.toNat) : a = b :=
  Char.ext (UInt32.toNat_inj.mp h)

theorem WordAt.ends {marks : List Nat} {p : List Char} {c : Char} (h : EndsWord marks p c) :
    WordAt marks (p ++ [c]) [] :=
  ⟨by intro x d y hx; simp at hx, Or.inr ⟨p, c, rfl, h⟩⟩

theorem WordAt.grow {marks : List Nat} {a v : List Char} {c : Char} (h : WordAt marks a v)
    (hc : ¬ EndsWord marks (a ++ v) c) : WordAt marks a (v ++ [c]) := by
  refine ⟨?_, h.outer⟩
  intro x d y hx
  rcases List.eq_nil_or_concat y with rfl | ⟨y', e, rfl⟩
  · have := List.append_inj' hx (by simp)
    obtain ⟨rfl, h2⟩ := this
    simp at h2
    subst h2
    exact hc
  · have hx' : v ++ [c] = (x ++ d :: y') ++ [e] := by simpa using hx
    have := (List.append_inj' hx' (by simp)).1
    exact h.inner x d y' this

/-- The character of a unit, if it has one for the editor. -/
def charOf (m : Moji) : Option Char := m.toRune?.map Char.ofNat

theorem toNat_ofNat {r : Rune} (h : isScalar r = true) : (Char.ofNat r).toNat = r := by
  obtain ⟨c, rfl⟩ := isScalar_char h
  rw [Char.ofNat_toNat]

/-- The runes of a unit are code points. -/
def CharsOk (l : List Moji) : Prop := ∀ m ∈ l, ∀ r, m.toRune? = some r → isScalar r = true

theorem Built.charOf_iff {C : Cfg} {m : Moji} (h : Built C m) {c : Char} :
    charOf m = some c ↔ m.write = utf8 [c] ∧ c ≠ '\t' := by
  constructor
  · intro hs
    cases h with
    | @base r hr =>
      obtain ⟨d, rfl⟩ := isScalar_char hr
      by_cases h9 : d.toNat = 9
      · rw [h9] at hs
        simp [rune2moji, Moji.norm, charOf, Moji.toRune?] at hs
      · unfold charOf at hs
        rw [rune2moji_toRune h9] at hs
        simp only [Option.map_some, Option.some.injEq, Char.ofNat_toNat] at hs
        subst hs
        refine ⟨by rw [Moji.norm_write, rune2moji_write, utf8_single], ?_⟩
        rintro rfl
        exact h9 rfl
    | zwj => cases hs
    | vari => cases hs
    | modi => cases hs
  · rintro ⟨hw, h9⟩
    unfold charOf
    rw [h.toRune hw h9]
    simp

theorem Built.charsOk {C : Cfg} {m : Moji} (h : Built C m) {r : Rune} (hr : m.toRune? = some r) :
    isScalar r = true := by
  cases h with
  | @base q hq =>
    by_cases h9 : q = 9
    · subst h9
      simp [rune2moji, Moji.norm, Moji.toRune?] at hr
    · rw [rune2moji_toRune h9] at hr
      cases hr
      exact hq
  | zwj => cases hr
  | vari => cases hr
  | modi => cases hr

/-- The word as the editor finds it among its units: units without a character do not count, and a word starts at
a unit that has one. -/
structure TopAt (marks : List Nat) (a v : List Moji) : Prop where
  word : WordAt marks (a.filterMap charOf) (v.filterMap charOf)
  head : ∀ m v', v = m :: v' → charOf m ≠ none

theorem wordTopLoop_spec {marks : List Nat} (h0 : 0 ∉ marks) (ms p a v : List Moji) (hr : CharsOk ms)
    (hp : p = a ++ v) (hw : TopAt marks a v)
    (w : Int) (hwv : w = if v = [] then -1 else (a.length : Int)) :
    ∃ a' v', p ++ ms = a' ++ v' ∧ TopAt marks a' v' ∧
      wordTopLoop marks (mojis2cells ms) p.length w (markOf (openQuote marks (p.filterMap charOf) none)) =
        if v' = [] then -1 else (a'.length : Int) := by
  induction ms generalizing p a v w with
  | nil => exact ⟨a, v, by simpa using hp, hw, hwv⟩
  | cons m ms ih =>
    have hr' : CharsOk ms := fun x hx => hr x (by simp [hx])
    have hcell : mojis2cells (m :: ms) = { moji := m } :: mojis2cells ms := rfl
    rw [hcell, wordTopLoop]
    dsimp only
    have hlen : (p.length : Int) + 1 = ((p ++ [m]).length : Int) := by simp
    have happ : p ++ m :: ms = (p ++ [m]) ++ ms := by simp
    rw [hlen, happ]
    cases hm : m.toRune? with
    | none =>
      have hc : charOf m = none := by simp [charOf, hm]
      have hq : p.filterMap charOf = (p ++ [m]).filterMap charOf := by simp [hc]
      dsimp only
      rw [hq]
      by_cases hv : v = []
      · subst hv
        refine ih (p ++ [m]) (a ++ [m]) [] hr' (by rw [hp]; simp) ⟨?_, by intro _ _ h; cases h⟩ w (by simpa using hwv)
        have := hw.word
        simpa [hc] using this
      · refine ih (p ++ [m]) a (v ++ [m]) hr' (by rw [hp]; simp) ⟨?_, ?_⟩ w ?_
        · have := hw.word
          simpa [hc] using this
        · intro x v' hx
          obtain ⟨y, v2, rfl⟩ := List.exists_cons_of_ne_nil hv
          simp at hx
          exact hx.1 ▸ hw.head y v2 rfl
        · rw [if_neg (by simp)]
          rwa [if_neg hv] at hwv
    | some r =>
      have hsc := hr m (by simp) r hm
      obtain ⟨c, rfl⟩ := isScalar_char hsc
      have hc : charOf m = some c := by simp [charOf, hm]
      dsimp only
      have hpm : (p ++ [m]).filterMap charOf = p.filterMap charOf ++ [c] := by simp [hc]
      have hq : (if markOf (openQuote marks (p.filterMap charOf) none) = 0 then (if marks.contains c.toNat then c.toNat else 0)
          else if c.toNat = markOf (openQuote marks (p.filterMap charOf) none) then 0
          else markOf (openQuote marks (p.filterMap charOf) none)) =
          markOf (openQuote marks ((p ++ [m]).filterMap charOf) none) := by
        rw [hpm]
        generalize p.filterMap charOf = p
        rw [openQuote_append]
        by_cases hz : markOf (openQuote marks p none) = 0
        · rw [if_pos hz]
          rw [(markOf_eq_zero h0).mp hz]
          simp only [openQuote]
          by_cases hm : c.toNat ∈ marks
          · rw [if_pos hm, if_pos (by simpa using hm)]; rfl
          · rw [if_neg hm, if_neg (by simpa using hm)]; rfl
        · rw [if_neg hz]
          cases hoq : openQuote marks p none with
          | none => rw [hoq] at hz; exact absurd rfl hz
          | some q =>
            have hmo : markOf (some q) = q.toNat := rfl
            rw [hmo]
            simp only [openQuote]
            by_cases hcq : c = q
            · rw [if_pos (by rw [hcq]), if_pos hcq]; rfl
            · rw [if_neg (fun h => hcq (char_toNat_inj h)), if_neg hcq]; rfl
      rw [hq]
      by_cases he : EndsWord marks (p.filterMap charOf) c
      · have hcond : (isSpaceRune c.toNat && markOf (openQuote marks ((p ++ [m]).filterMap charOf) none) == 0) = true := by
          rw [Bool.and_eq_true, beq_iff_eq, hpm]
          exact ⟨(isSpaceRune_iff c).mpr he.1, (markOf_eq_zero h0).mpr he.2⟩
        rw [if_pos hcond]
        refine ih (p ++ [m]) (p ++ [m]) [] hr' (by simp) ⟨?_, by intro _ _ h; cases h⟩ (-1) (by simp)
        rw [hpm]
        exact WordAt.ends he
      · have hcond : ¬ (isSpaceRune c.toNat && markOf (openQuote marks ((p ++ [m]).filterMap charOf) none) == 0) = true := by
          rw [Bool.and_eq_true, beq_iff_eq, hpm]
          rintro ⟨h1, h2⟩
          exact he ⟨(isSpaceRune_iff c).mp h1, (markOf_eq_zero h0).mp h2⟩
        rw [if_neg hcond]
        have hrt : (if v ++ [m] = [] then (-1 : Int) else (a.length : Int)) = a.length := by
          rw [if_neg (by simp)]
        refine ih (p ++ [m]) a (v ++ [m]) hr' (by rw [hp]; simp) ⟨?_, ?_⟩ _ ?_
        · have := WordAt.grow hw.word (c := c) (by
            rw [← List.filterMap_append, ← hp]; exact he)
          simpa [hc] using this
        · intro x v' hx
          cases v with
          | nil => simp at hx; rw [← hx.1, hc]; simp
          | cons y v2 =>
            simp at hx
            exact hx.1 ▸ hw.head y v2 rfl
        · rw [hrt]
          by_cases hv : v = []
          · subst hv
            rw [if_pos rfl] at hwv
            rw [if_pos (by omega), hp]
            simp
          · rw [if_neg hv] at hwv
            rw [if_neg (by omega)]
            exact hwv

theorem wordTop_spec {L : Logic} (h0 : 0 ∉ L.delimiters) {l : List Moji} {n : Nat}
    (hc : CharsOk (l.take n)) (hn : n ≤ l.length) :
    ∃ a v, l.take n = a ++ v ∧ TopAt L.delimiters a v ∧ Ed.wordTop L l n = a.length := by
  obtain ⟨a, v, h1, h2, h3⟩ := wordTopLoop_spec h0 (l.take n) [] [] [] hc rfl
    ⟨⟨by intro x c y h; simp at h, Or.inl rfl⟩, by intro _ _ h; cases h⟩ (-1) (by simp)
  refine ⟨a, v, by simpa using h1, h2, ?_⟩
  have h3' : wordTopLoop L.delimiters (mojis2cells (l.take n)) 0 (-1) 0 =
      if v = [] then -1 else (a.length : Int) := h3
  unfold Ed.wordTop
  dsimp only
  rw [Int.toNat_natCast, h3']
  by_cases hv : v = []
  · rw [if_pos hv, if_pos (by omega)]
    have := congrArg List.length h1
    subst hv
    simp at this
    omega
  · rw [if_neg hv, if_neg (by omega)]

/-- The characters of units: tabs and joined characters are none. -/
inductive Spec.Letters : List Bytes → List Char → Prop where
  | nil : Letters [] []
  | letter {c : Char} {l : List Bytes} {cs : List Char} : c ≠ '\t' → Letters l cs → Letters (utf8 [c] :: l) (c :: cs)
  | other {u : Bytes} {l : List Bytes} {cs : List Char} : (∀ c, c ≠ '\t' → u ≠ utf8 [c]) → Letters l cs →
      Letters (u :: l) cs

/-- `v` is the word at the end of the units `a ++ v` as the editor sees it: by the characters alone, and starting with
one, so that other units before the first character of the word are not part of it. -/
structure Spec.UnitWord (marks : List Nat) (a v : List Bytes) : Prop where
  word : ∃ x y, Letters a x ∧ Letters v y ∧ WordAt marks x y
  head : v = [] ∨ ∃ c v', c ≠ '\t' ∧ v = utf8 [c] :: v'

theorem letters_of {C : Cfg} {l : List Moji} (hb : ∀ m ∈ l, Built C m) :
    Letters (l.map Moji.write) (l.filterMap charOf) := by
  induction l with
  | nil => exact .nil
  | cons m l ih =>
    have hm := hb m (by simp)
    have ih := ih (fun x hx => hb x (by simp [hx]))
    rw [List.map_cons]
    cases hc : charOf m with
    | none =>
      rw [List.filterMap_cons_none hc]
      refine .other (fun c h9 hw => ?_) ih
      rw [hm.charOf_iff.mpr ⟨hw, h9⟩] at hc
      cases hc
    | some c =>
      rw [List.filterMap_cons_some hc, (hm.charOf_iff.mp hc).1]
      exact .letter (hm.charOf_iff.mp hc).2 ih

theorem TopAt.units {C : Cfg} {marks : List Nat} {a v : List Moji} (h : TopAt marks a v)
    (hb : ∀ m ∈ a ++ v, Built C m) : UnitWord marks (a.map Moji.write) (v.map Moji.write) := by
  refine ⟨⟨_, _, letters_of (fun m hm => hb m (by simp [hm])), letters_of (fun m hm => hb m (by simp [hm])), h.word⟩, ?_⟩
  cases v with
  | nil => exact Or.inl rfl
  | cons m v =>
    right
    cases hc : charOf m with
    | none => exact absurd hc (h.head m v rfl)
    | some c =>
      have := ((hb m (by simp)).charOf_iff).mp hc
      exact ⟨c, v.map Moji.write, this.2, by rw [List.map_cons, this.1]⟩

theorem utf8_single_inj {c d : Char} (h : utf8 [c] = utf8 [d]) : c = d := by
  rw [utf8_single, utf8_single] at h
  have e := decode_encode (char_isScalar c) []
  have e' := decode_encode (char_isScalar d) []
  rw [List.append_nil] at e e'
  rw [h, e'] at e
  exact char_toNat_inj (Prod.mk.inj e).1.symm

theorem Spec.Letters.plain {l : List Bytes} {x cs : List Char} (h : Letters l x)
    (hl : l = cs.map (fun c => utf8 [c])) (ht : '\t' ∉ cs) : x = cs := by
  induction h generalizing cs with
  | nil =>
    cases cs with
    | nil => rfl
    | cons c cs => simp at hl
  | letter _ _ ih =>
    cases cs with
    | nil => simp at hl
    | cons c cs =>
      simp only [List.map_cons, List.cons.injEq] at hl
      simp only [List.mem_cons, not_or] at ht
      rw [ih hl.2 ht.2, utf8_single_inj hl.1]
  | other hn _ ih =>
    cases cs with
    | nil => simp at hl
    | cons c cs =>
      simp only [List.map_cons, List.cons.injEq] at hl
      simp only [List.mem_cons, not_or] at ht
      exact absurd hl.1 (hn c (fun h => ht.1 h.symm))

/-- For plain characters this is the word. -/
theorem Spec.UnitWord.plain {marks : List Nat} {a v : List Char} (ht : '\t' ∉ a ++ v)
    (h : UnitWord marks (a.map (fun c => utf8 [c])) (v.map (fun c => utf8 [c]))) : WordAt marks a v := by
  obtain ⟨x, y, h1, h2, h3⟩ := h.word
  rw [h1.plain rfl (fun h => ht (by simp [h])), h2.plain rfl (fun h => ht (by simp [h]))] at h3
  exact h3

theorem flatten_utf8 (cs : List Char) : (cs.map (fun c => utf8 [c])).flatten = utf8 cs := by
  induction cs with
  | nil => rfl
  | cons c cs ih =>
    rw [List.map_cons, List.flatten_cons, ih]
    simp [utf8]

theorem currentWord_units {E : Env} {s : St} {l r : List Bytes}
    (hbuilt : ∀ m ∈ s.line, Built E.cfg m) (h0 : 0 ∉ E.delimiters) (hat : At s l r) :
    ∃ a v, l = a ++ v ∧ UnitWord E.delimiters a v ∧ currentWord E s = .ok (v.flatten, a.length) := by
  obtain ⟨ml, mr, ha, rfl, e2⟩ := hat.ed
  have hline : s.line = ml ++ mr := ha.line
  have hbl : ∀ m ∈ ml, Built E.cfg m := fun m hm => hbuilt m (by rw [hline]; simp [hm])
  have htk : s.line.take ml.length = ml := by rw [hline]; simp
  obtain ⟨a, v, hcs, hw, htop⟩ := wordTop_spec (L := E.logic) h0 (l := s.line) (n := ml.length)
    (by rw [htk]; exact fun m hm r hr => (hbl m hm).charsOk hr) (by rw [hline]; simp)
  rw [htk] at hcs
  refine ⟨a.map Moji.write, v.map Moji.write, by rw [hcs]; simp, hw.units (by rw [← hcs]; exact hbl), ?_⟩
  have hcur : s.cursor = ml.length := ha.cursor
  have hblen : s.buf.length = ml.length + mr.length := by rw [← St.line_length, hline]; simp
  have hal : a.length ≤ ml.length := by rw [hcs]; simp
  have hin : slice s s.buf 0 s.cursor = .ok ((s.buf.take s.cursor.toNat).drop (0 : Int).toNat) := by
    unfold slice; rw [if_pos ⟨by omega, by omega⟩, if_pos (by omega)]
  have hct : currentWordTop E s = .ok (a.length : Int) := by
    have : ∃ t, currentWordTop E s = .ok t := by
      unfold currentWordTop
      rw [hin]
      exact ⟨_, rfl⟩
    obtain ⟨t, hte⟩ := this
    rw [hte, (currentWordTop_ok hte).2.2, hcur]
    congr 1
  unfold currentWord
  rw [hct]
  have hsub : subString s a.length s.cursor = .ok (v.map Moji.write).flatten := by
    unfold subString
    have hin2 : slice s s.buf (a.length : Int) s.cursor =
        .ok ((s.buf.take s.cursor.toNat).drop (a.length : Int).toNat) := by
      unfold slice; rw [if_pos ⟨by omega, by omega⟩, if_pos (by omega)]
    rw [hin2]
    show Except.ok _ = _
    rw [cell2string_eq]
    congr 1
    have h3 : ((s.buf.take s.cursor.toNat).drop (a.length : Int).toNat).map (fun c => c.moji.norm) =
        ml.drop a.length := by
      rw [List.map_drop, List.map_take]
      show ((s.line).take _).drop _ = _
      rw [hline, hcur]; simp
    rw [h3]
    show ((ml.drop a.length).map Moji.write).flatten = _
    rw [hcs]
    simp
  show (do let w ← subString s _ s.cursor; pure (w, _)) = _
  rw [hsub]
  show Except.ok ((v.map Moji.write).flatten, (a.length : Int)) = _
  rw [List.length_map]

theorem C15_currentWord {E : Env} {w : World} {s : St} {l r : List Bytes}
    (hb : BuiltinKeys E) (hre : Reachable E w s) (h0 : 0 ∉ E.delimiters) (hat : At s l r) :
    ∃ a v, l = a ++ v ∧ UnitWord E.delimiters a v ∧ currentWord E s = .ok (v.flatten, a.length) :=
  currentWord_units (reachable_built hb hre) h0 hat

theorem C15_currentWord_partial {E : Env} {w : World} {s : St} {cs : List Char} {r : List Bytes}
    (hb : BuiltinKeys E) (hre : Reachable E w s) (h0 : 0 ∉ E.delimiters)
    (hat : At s (cs.map (fun c => utf8 [c])) r) (ht : '\t' ∉ cs) :
    ∃ a v, cs = a ++ v ∧ WordAt E.delimiters a v ∧ currentWord E s = .ok (utf8 v, a.length) := by
  obtain ⟨a, v, h1, h2, h3⟩ := C15_currentWord hb hre h0 hat
  obtain ⟨ca, cv, rfl, rfl, rfl⟩ := List.map_eq_append_iff.mp h1
  refine ⟨ca, cv, rfl, h2.plain ht, ?_⟩
  rw [h3, flatten_utf8]
  simp

/-- What UnixWordRubout has to remove of the text before the cursor: the word and the white space
after it. -/
structure Spec.Rubs (marks : List Nat) (l a v z : List Char) : Prop where
  split : l = a ++ v ++ z
  word : WordAt marks a v
  blanks : ∀ c ∈ z, White c
  /-- the white space is maximal -/
  solid : a ++ v = [] ∨ ∃ p c, a ++ v = p ++ [c] ∧ ¬ White c

/-- The same for all units. -/
structure Spec.UnitRubs (marks : List Nat) (l a v z : List Bytes) : Prop where
  split : l = a ++ v ++ z
  word : UnitWord marks a v
  blanks : ∀ u ∈ z, Blank u ∧ u ≠ [9]
  /-- the white space is maximal -/
  solid : a ++ v = [] ∨ ∃ p u, a ++ v = p ++ [u] ∧ ¬ (Blank u ∧ u ≠ [9])

theorem rubout_leads {E : Env} {s s' : St} {rc : Result} {l r : List Bytes}
    (hbuilt : ∀ m ∈ s.line, Built E.cfg m) (h0 : 0 ∉ E.delimiters) (hat : At s l r)
    (ho : Leads s' (Ed.call E.logic .unixWordRubout s.ed).1) (hr : rc = (Ed.call E.logic .unixWordRubout s.ed).2) :
    ∃ a v z, UnitRubs E.delimiters l a v z ∧ At s' a r ∧
      s'.clip = E.clipSet s.clip (v ++ z).flatten ∧ rc = .cont := by
  obtain ⟨ml, mr, ha, rfl, rfl⟩ := hat.ed
  have hline : s.line = ml ++ mr := ha.line
  have hbl : ∀ m ∈ ml, Built E.cfg m := fun m hm => hbuilt m (by rw [hline]; simp [hm])
  obtain ⟨p, z, hp, hplen, hz, hpe⟩ := dropWhile_right Moji.isSpace ml
  have hsk : Ed.skipSpaces ml ml.length = p.length := by
    unfold Ed.skipSpaces; rw [List.take_length, hplen]
  have htp : ml.take p.length = p := by rw [hp]; simp
  obtain ⟨a, v, hav, hw, htop⟩ := wordTop_spec (L := E.logic) h0 (l := ml) (n := p.length)
    (by rw [htp]; exact fun m hm r hr => (hbl m (by rw [hp]; simp [hm])).charsOk hr) (by rw [hp]; simp)
  rw [htp] at hav
  have hrub : Ed.rubPos E.logic ml = a.length := by
    unfold Ed.rubPos; rw [hsk, htop]; simp
  obtain ⟨k1, k2, -⟩ := ha.wordRubout (L := E.logic)
  rw [hrub] at k1 k2
  have hat' := ho.at k1
  have hml : ml = a ++ (v ++ z) := by rw [hp, hav]; simp
  have htk : ml.take a.length = a := by rw [hml]; simp
  have hdr : ml.drop a.length = v ++ z := by rw [hml]; simp
  have hmem : ∀ m ∈ a ++ (v ++ z), Built E.cfg m := by rw [← hml]; exact hbl
  refine ⟨a.map Moji.write, v.map Moji.write, z.map Moji.write, ⟨?_, ?_, ?_, ?_⟩, ?_, ?_, hr⟩
  · rw [hml]; simp
  · exact hw.units (fun m hm => hmem m (by rw [← List.append_assoc]; exact List.mem_append_left _ hm))
  · intro u hu
    obtain ⟨m, hm, rfl⟩ := List.mem_map.mp hu
    exact (hmem m (by simp [hm])).isSpace_iff.mp (hz m hm)
  · rw [← List.map_append, ← hav]
    rcases hpe with rfl | ⟨p', x, rfl, hx⟩
    · exact Or.inl rfl
    · right
      refine ⟨p'.map Moji.write, x.write, by simp, ?_⟩
      rw [← (hbl x (by rw [hp]; simp)).isSpace_iff, hx]
      simp
  · rwa [htk] at hat'
  · rw [ho.clip]
    show (Ed.wordRubout E.logic s.ed).clip = _
    rw [k2]
    show E.clipSet s.clip ((ml.drop a.length).map Moji.write).flatten = _
    rw [hdr, List.map_append]

theorem C15_rubout {E : Env} {w : World} {s s' : St} {rc : Result} {l r : List Bytes}
    (hb : BuiltinKeys E) (hre : Reachable E w s) (h0 : 0 ∉ E.delimiters) (hat : At s l r)
    (h : Performs E .unixWordRubout s s' rc) :
    ∃ a v z, UnitRubs E.delimiters l a v z ∧ At s' a r ∧
      s'.clip = E.clipSet s.clip (v ++ z).flatten ∧ rc = .cont := by
  obtain ⟨i, x, ho, hr⟩ := h.leads rfl
  exact rubout_leads (s := s.but i x) (fun m h => reachable_built hb hre m h) h0 (hat.but i x) ho hr

theorem C15_rubout_partial {E : Env} {w : World} {s s' : St} {rc : Result} {cs : List Char}
    {r : List Bytes} (hb : BuiltinKeys E) (hre : Reachable E w s) (h0 : 0 ∉ E.delimiters)
    (hat : At s (cs.map (fun c => utf8 [c])) r) (ht : '\t' ∉ cs)
    (h : Performs E .unixWordRubout s s' rc) :
    ∃ a v z, Rubs E.delimiters cs a v z ∧ At s' (a.map (fun c => utf8 [c])) r ∧
      s'.clip = E.clipSet s.clip (utf8 (v ++ z)) ∧ rc = .cont := by
  obtain ⟨a, v, z, hr, h2, h3, h4⟩ := C15_rubout hb hre h0 hat h
  obtain ⟨cav, cz, rfl, hav, rfl⟩ := List.map_eq_append_iff.mp hr.split
  obtain ⟨ca, cv, rfl, rfl, rfl⟩ := List.map_eq_append_iff.mp hav
  have hwhite : ∀ c : Char, c ≠ '\t' → (White c ↔ Blank (utf8 [c]) ∧ utf8 [c] ≠ [9]) := by
    intro c hc
    constructor
    · intro hw
      refine ⟨⟨c, hw, rfl⟩, fun h9 => hc (utf8_single_inj (h9.trans ?_))⟩
      decide
    · rintro ⟨⟨d, hd, e⟩, -⟩
      rwa [utf8_single_inj e]
  refine ⟨ca, cv, cz, ⟨rfl, hr.word.plain (fun h => ht (List.mem_append_left _ h)), ?_, ?_⟩, h2, ?_, h4⟩
  · intro c hc
    exact (hwhite c (by rintro rfl; exact ht (by simp [hc]))).mpr (hr.blanks _ (List.mem_map.mpr ⟨c, hc, rfl⟩))
  · rcases hr.solid with h | ⟨p, u, h, hu⟩
    · left; simpa using h
    · right
      rw [← List.map_append] at h
      obtain ⟨cp, cu, h5, rfl, h6⟩ := List.map_eq_append_iff.mp h
      obtain ⟨c, rfl, rfl⟩ := List.map_eq_singleton_iff.mp h6
      refine ⟨cp, c, h5, fun hw => hu ((hwhite c ?_).mp hw)⟩
      rintro rfl
      exact ht (by rw [h5]; simp)
  · rw [h3, ← List.map_append, flatten_utf8]

section
open Example
/-- The word of a state. -/
def Example.word (E : Env) (x : M St) : PanicKind ⊕ (Bytes × Int) :=
  match x with
  | .error p => .inl p.kind
  | .ok s => match currentWord E s with
    | .error p => .inl p.kind
    | .ok y => .inr y

/-- White space inside and outside quotation marks. -/
example :
    let E := { env plain with delimiters := [0x22] }
    let x := after E { input := keys ["a", " ", "b", "\"", "c", " ", "あ"] } 7
    let y := after E { input := keys ["a", " ", "b", "\"", "c", " ", "\"", " ", " ", "\x17"] } 10
    word E x = .inr (b "b\"c あ", 2) ∧ look y = .inr ([b "a", b " "], 2, 0) := by decide +kernel

example : WordAt [0x22] "a ".toList "b\"c あ".toList := by
  have := WordAt.ends (marks := [0x22]) (p := ['a']) (c := ' ') (by decide)
  have := WordAt.grow this (c := 'b') (by decide)
  have := WordAt.grow this (c := '"') (by decide)
  have := WordAt.grow this (c := 'c') (by decide)
  have := WordAt.grow this (c := ' ') (by decide)
  have := WordAt.grow this (c := 'あ') (by decide)
  exact this

/-- A tab does not end a word. -/
theorem C15_refuted_tab :
    word (env plain) (after (env plain) { input := keys ["a", "\t", "b"] } 3) = .inr (b "a\tb", 0) := by
  decide +kernel

/-- A joined character is not taken for the start of a word. -/
theorem C15_refuted_joined :
    look (after (env full) { input := keys [" ", "👩", "‍", "🚀", "b"] } 5) =
      .inr ([b " ", b "👩‍🚀", b "b"], 3, 0) ∧
    word (env full) (after (env full) { input := keys [" ", "👩", "‍", "🚀", "b"] } 5) = .inr (b "b", 2) := by
  decide +kernel
end
end Readline
