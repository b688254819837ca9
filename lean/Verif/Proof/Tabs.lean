import Verif.Proof.Units
import Verif.Proof.Display
/-!
# Columns of tabs

A tab panics when it is printed at a negative `int16` column.  That needs more than 32767
columns of text before it.
-/
namespace Readline

def mojisWidth (C : Cfg) (ms : List Moji) : Int := (ms.map (fun m => m.width C)).sum

theorem mojisWidth_append (C : Cfg) (a b : List Moji) :
    mojisWidth C (a ++ b) = mojisWidth C a + mojisWidth C b := by simp [mojisWidth]

theorem mojisWidth_nonneg {C : Cfg} (h : ∀ m : Moji, 0 ≤ m.width C) (ms : List Moji) :
    0 ≤ mojisWidth C ms := by
  induction ms with
  | nil => simp [mojisWidth]
  | cons m ms ih =>
    have := h m
    simp only [mojisWidth, List.map_cons, List.sum_cons] at *
    omega

/-- Every tab stands in a column that is, modulo 2^16, at most the width of the text before. -/
def TabOk (C : Cfg) (ms : List Moji) : Prop :=
  ∀ pre p post, ms = pre ++ .tab p :: post → ∃ q, p = toInt16 q ∧ 0 ≤ q ∧ q ≤ mojisWidth C pre

def Moji.isZwj : Moji → Bool
  | .zwj _ _ => true
  | _ => false

theorem printPanics_zwj {m : Moji} (h : m.printPanics = true) (hz : m.isZwj = false) :
    ∃ p, m = .tab p ∧ Int.tmod p 4 < 0 := by
  cases m <;> simp_all [Moji.printPanics, Moji.isZwj]

theorem printPanics_nine {m : Moji} (h : m.printPanics = true) : 9 ∈ m.write := by
  induction m with
  | tab p => simp [Moji.write]
  | zwj a b iha ihb =>
    have hab : a.printPanics = true ∨ b.printPanics = true := by
      cases a <;> simp_all [Moji.printPanics]
    simp only [Moji.write, List.mem_append]
    rcases hab with h | h
    · exact Or.inl (Or.inl (iha h))
    · exact Or.inr (ihb h)
  | _ => simp_all [Moji.printPanics]

theorem toInt16_small {q : Int} (h0 : 0 ≤ q) (h : q ≤ 32767) : toInt16 q = q := by
  unfold toInt16
  rw [Int.bmod_def]
  omega

theorem toInt16_add (a b : Int) : toInt16 (toInt16 a + toInt16 b) = toInt16 (a + b) := by
  unfold toInt16; simp

theorem tab_overflow {p q : Int} (h : p = toInt16 q) (h0 : 0 ≤ q) (hp : Int.tmod p 4 < 0) :
    32767 < q := by
  by_cases hq : q ≤ 32767
  · rw [toInt16_small h0 hq] at h
    subst h
    have := Int.tmod_nonneg 4 h0
    omega
  · omega

theorem TabOk.overflow {C : Cfg} {pre post : List Moji} {m : Moji} (h : TabOk C (pre ++ m :: post))
    (hm : m.printPanics = true) (hz : m.isZwj = false) : 32767 < mojisWidth C pre := by
  obtain ⟨p, rfl, hp⟩ := printPanics_zwj hm hz
  obtain ⟨q, h1, h2, h3⟩ := h pre p post rfl
  have := tab_overflow h1 h2 hp
  omega

/-! ## The columns stored by `refreshColor` -/

theorem refreshCell_pos (C : Cfg) (K : Coloring) (σ : K.σ) (p : Int) (c : Cell) :
    (refreshCell C K σ p c).2.1
      = toInt16 (p + toInt16 ((refreshCell C K σ p c).2.2.moji.width C)) ∧
    ∀ q, (refreshCell C K σ p c).2.2.moji = .tab q → q = p := by
  unfold refreshCell
  split
  · exact ⟨rfl, fun q h => by cases h; rfl⟩
  · rename_i hm
    split
    · exact ⟨rfl, fun q h => absurd h (by intro h; exact hm q h)⟩
    · exact ⟨rfl, fun q h => absurd h (by intro h; exact hm q h)⟩

theorem refreshLoop_tabs (C : Cfg) (K : Coloring) (cursor : Int) (σ : K.σ) (i a : Int)
    (cs : List Cell) (pre : List Cell) (x : Cell) (post : List Cell) (p : Int)
    (h : refreshLoop C K cursor σ i (toInt16 a) cs = pre ++ x :: post) (hx : x.moji = .tab p) :
    p = toInt16 (a + cellsWidth C pre) := by
  induction cs generalizing σ i a pre with
  | nil => simp [refreshLoop] at h
  | cons c cs ih =>
    rw [refreshLoop] at h
    dsimp only at h
    generalize (if i = cursor then (K.next σ cursorDummyRune).1 else σ) = σ1 at h
    have hp := refreshCell_pos C K σ1 (toInt16 a) c
    generalize refreshCell C K σ1 (toInt16 a) c = rc at *
    obtain ⟨σ', p', c'⟩ := rc
    dsimp only at h hp
    cases pre with
    | nil =>
      simp only [List.nil_append, List.cons.injEq] at h
      rw [← h.1] at hx
      rw [hp.2 p hx]
      simp [cellsWidth]
    | cons y pre =>
      simp only [List.cons_append, List.cons.injEq] at h
      rw [hp.1, toInt16_add] at h
      have := ih σ' (i + 1) (a + c'.moji.width C) pre h.2
      rw [this, ← h.1]
      simp only [cellsWidth, List.map_cons, List.sum_cons]
      congr 1
      omega

theorem cellsWidth_mojis (C : Cfg) (cs : List Cell) :
    cellsWidth C cs = mojisWidth C (cs.map Cell.moji) := by
  simp [cellsWidth, mojisWidth, Function.comp_def]

/-- After `refreshColor` every tab stands in its column. -/
theorem refresh_tabOk {C : Cfg} (hw : ∀ m : Moji, 0 ≤ m.width C) (K : Coloring) (cursor : Int)
    (σ : K.σ) (cs : List Cell) : TabOk C ((refreshLoop C K cursor σ 0 0 cs).map Cell.moji) := by
  intro pre p post h
  obtain ⟨l1, l2, h1, h2, h3⟩ := List.map_eq_append_iff.mp h
  obtain ⟨x, l3, h4, h5, h6⟩ := List.map_eq_cons_iff.mp h3
  subst h4
  have := refreshLoop_tabs C K cursor σ 0 0 cs l1 x l3 p (by
    rw [show toInt16 0 = 0 by decide]; exact h1) h5
  refine ⟨mojisWidth C pre, ?_, mojisWidth_nonneg hw _, Int.le_refl _⟩
  rw [this, cellsWidth_mojis, h2]
  simp

/-! ## The columns stored by `StringToMoji` -/

theorem segLoop_tabs {C : Cfg} (hw : ∀ m : Moji, 0 ≤ m.width C) (hz : C.zwjOk = false)
    (rs : List Rune) (acc : List Moji) (pos : Int) (h1 : 0 ≤ pos)
    (h2 : pos ≤ mojisWidth C acc.reverse) (h3 : TabOk C acc.reverse) :
    TabOk C (segLoop C rs false acc pos) := by
  have tail_ok : ∀ (a : List Moji) (x y : Moji), TabOk C (a ++ [x]) → (∀ p, y ≠ .tab p) →
      TabOk C (a ++ [y]) := by
    intro a x y h hy pre p post e
    rcases List.append_eq_append_iff.mp e with ⟨as, e1, e2⟩ | ⟨bs, e1, e2⟩
    · cases as with
      | nil =>
        simp only [List.nil_append, List.cons.injEq] at e2
        exact absurd e2.1 (hy p)
      | cons z zs =>
        simp only [List.cons_append, List.cons.injEq] at e2
        have := congrArg List.length e2.2
        simp at this
    · cases bs with
      | nil =>
        simp only [List.nil_append, List.cons.injEq] at e2
        exact absurd e2.1.symm (hy p)
      | cons z zs =>
        simp only [List.cons_append, List.cons.injEq] at e2
        apply h pre p (zs ++ [x])
        rw [e1, ← e2.1]
        simp
  induction rs generalizing acc pos with
  | nil => rw [segLoop]; simpa using h3
  | cons r rs ih =>
    rw [segLoop]
    rw [if_neg (by simp)]
    split
    · apply ih
      · have := hw (rune2moji C r pos); omega
      · rw [List.reverse_cons, mojisWidth_append]
        simp only [mojisWidth, List.map_cons, List.map_nil, List.sum_cons, List.sum_nil] at *
        omega
      · rw [List.reverse_cons]
        intro pre p post e
        rcases List.append_eq_append_iff.mp e with ⟨as, e1, e2⟩ | ⟨bs, e1, e2⟩
        · cases as with
          | nil =>
            simp only [List.nil_append, List.cons.injEq] at e2
            rw [List.append_nil] at e1
            refine ⟨pos, ?_, h1, by rw [e1]; exact h2⟩
            have e3 := e2.1
            unfold rune2moji at e3
            split at e3
            · simpa using e3.symm
            · repeat' split at e3
              all_goals cases e3
          | cons z zs =>
            simp only [List.cons_append, List.cons.injEq] at e2
            have := congrArg List.length e2.2
            simp at this
        · cases bs with
          | nil =>
            simp only [List.nil_append, List.cons.injEq] at e2
            rw [List.append_nil] at e1
            refine ⟨pos, ?_, h1, by rw [← e1]; exact h2⟩
            have e3 := e2.1.symm
            unfold rune2moji at e3
            split at e3
            · simpa using e3.symm
            · repeat' split at e3
              all_goals cases e3
          | cons z zs =>
            simp only [List.cons_append, List.cons.injEq] at e2
            exact h3 pre p zs (by rw [e1, ← e2.1])
    · rename_i hc
      rw [if_neg (by simp [isZeroWidthJoin, hz])]
      have hne : acc ≠ [] := by simp only [not_or] at hc; exact hc.1
      cases acc with
      | nil => exact absurd rfl hne
      | cons a acc =>
        rw [List.reverse_cons, mojisWidth_append] at h2
        rw [List.reverse_cons] at h3
        split
        · apply ih _ _ h1
          · rw [mapHead, List.reverse_cons, mojisWidth_append]
            have : a.width C ≤ (Moji.vari a (.raw r)).width C := by
              cases a <;> simp [Moji.width] <;> omega
            simp only [mojisWidth, List.map_cons, List.map_nil, List.sum_cons, List.sum_nil] at *
            omega
          · rw [mapHead, List.reverse_cons]
            exact tail_ok _ _ _ h3 (by simp)
        · apply ih _ _ h1
          · rw [mapHead, List.reverse_cons, mojisWidth_append]
            have : a.width C ≤ (Moji.modi a (.raw r)).width C := by
              have := hw (.raw r)
              simp only [Moji.width] at *; omega
            simp only [mojisWidth, List.map_cons, List.map_nil, List.sum_cons, List.sum_nil] at *
            omega
          · rw [mapHead, List.reverse_cons]
            exact tail_ok _ _ _ h3 (by simp)

theorem stringToMoji_tabOk {C : Cfg} (hw : ∀ m : Moji, 0 ≤ m.width C) (hz : C.zwjOk = false)
    (t : Bytes) : TabOk C (stringToMoji C t) := by
  rw [stringToMoji_eq]
  exact segLoop_tabs hw hz _ _ _ (Int.le_refl _) (by simp [mojisWidth]) (by
    intro pre p post e; simp at e)

theorem stringToMoji_zwj {C : Cfg} (hz : C.zwjOk = false) (t : Bytes) :
    ∀ m ∈ stringToMoji C t, m.isZwj = false := by
  intro m hm
  have hb := segs_built C t m.norm (List.mem_map.mpr ⟨m, hm, rfl⟩)
  have h1 : m.isZwj = m.norm.isZwj := by cases m <;> rfl
  rw [h1]
  generalize m.norm = m' at hb
  cases hb with
  | zwj h => simp [hz] at h
  | @base r h =>
    unfold rune2moji
    repeat' split
    all_goals rfl
  | vari => rfl
  | modi => rfl

/-! ## Bytes of tabs -/

theorem segN_nine (C : Cfg) (rs : List Rune) (j : Bool) (acc : List Moji)
    (hrs : ∀ r ∈ rs, (9 : UInt8) ∉ encodeRune r) (ha : ∀ m ∈ acc, (9 : UInt8) ∉ m.write) :
    ∀ m ∈ segN C rs j acc, (9 : UInt8) ∉ m.write := by
  have hmap : ∀ (f : Moji → Moji) (l : List Moji), (∀ m ∈ l, (9 : UInt8) ∉ m.write) →
      (∀ m, (9 : UInt8) ∉ m.write → (9 : UInt8) ∉ (f m).write) →
      ∀ m ∈ mapHead f l, (9 : UInt8) ∉ m.write := by
    intro f l hl hf m hm
    cases l with
    | nil => cases hm
    | cons a l =>
      simp only [mapHead, List.mem_cons] at hm
      rcases hm with rfl | hm
      · exact hf _ (hl a (by simp))
      · exact hl m (by simp [hm])
  have hzw : ∀ n : Rune, (9 : UInt8) ∉ encodeRune n → ∀ m : Moji, (9 : UInt8) ∉ m.write →
      (9 : UInt8) ∉ (Moji.zwj m (.raw n)).write := by
    intro n hn m hm
    simp only [Moji.write, List.mem_append, not_or]
    exact ⟨⟨hm, by decide⟩, hn⟩
  induction rs generalizing j acc with
  | nil =>
    intro m hm
    unfold segN at hm
    rw [List.mem_reverse] at hm
    cases j with
    | false => exact ha m (by simpa using hm)
    | true => exact hmap _ acc ha (hzw runeError (by decide)) m (by simpa using hm)
  | cons r rs ih =>
    have hr := hrs r (by simp)
    have hrs' : ∀ r ∈ rs, (9 : UInt8) ∉ encodeRune r := fun x hx => hrs x (by simp [hx])
    unfold segN
    cases j with
    | true =>
      rw [if_pos rfl]
      exact ih false _ hrs' (hmap _ acc ha (hzw r hr))
    | false =>
      rw [if_neg (by simp)]
      split
      · apply ih false _ hrs'
        intro m hm
        rcases List.mem_cons.mp hm with rfl | hm
        · rw [Moji.norm_write, rune2moji_write]; exact hr
        · exact ha m hm
      · split
        · exact ih true _ hrs' ha
        · split
          · exact ih false _ hrs' (hmap _ acc ha (fun m hm => by
              simp only [Moji.write, List.mem_append, not_or]; exact ⟨hm, hr⟩))
          · exact ih false _ hrs' (hmap _ acc ha (fun m hm => by
              simp only [Moji.write, List.mem_append, not_or]; exact ⟨hm, hr⟩))

theorem nine_encodeRune {r : Rune} (h : r ≠ 9) : (9 : UInt8) ∉ encodeRune r :=
  fun hm => h (mem_encodeRune_ascii (b := 9) (by decide) hm)

theorem nine_encodeRunes {rs : List Rune} (h : 9 ∉ rs) : (9 : UInt8) ∉ encodeRunes rs := by
  intro hm
  obtain ⟨r, hr, hm⟩ := List.mem_flatMap.mp hm
  exact nine_encodeRune (fun e => h (e ▸ hr)) hm

theorem nine_runesOf {t : Bytes} (h : 9 ∉ t) : 9 ∉ runesOf t :=
  fun hm => h (mem_runesOf_ascii (r := 9) (by decide) hm)

/-- A unit with a tab comes from a text with a tab. -/
theorem stringToMoji_nine {C : Cfg} {t : Bytes} {m : Moji} (hm : m ∈ stringToMoji C t)
    (h : (9 : UInt8) ∈ m.write) : 9 ∈ t := by
  by_cases ht : (9 : UInt8) ∈ t
  · exact ht
  · exfalso
    have hs : m.norm ∈ segs C t := List.mem_map.mpr ⟨m, hm, rfl⟩
    rw [segs_eq] at hs
    have := segN_nine C (runesOf t) false [] (fun r hr =>
      nine_encodeRune (fun e => nine_runesOf ht (e ▸ hr))) (by simp) _ hs
    rw [Moji.norm_write] at this
    exact this h

end Readline
