import Verif.Spec.Terminal
import Verif.Spec.Example
import Verif.Proof.Units
import Verif.Props.C04
/-!
# C28: what a unit prints is as wide as it says

`Spec/Terminal.lean` describes where the cursor of a terminal goes that agrees with the width
table.  `C28_rune`: every unit made of one code point, whatever the code point, moves the cursor
by its `Width()`.  `C28_string_partial`: so does every unit of every string whose code points are `Orderly`.

False otherwise.  A modifier (skin tone) or variation selector behind a control character, a tab or an
escaped code point makes readline send that character itself (moji.go:90-92, 131-139 print with `WriteTo`),
as does a joined control character (`C28_refuted`, `C28_refuted_width`, `C28_refuted_joined`); a modifier
behind a variation selector is one column less than announced (`C28_refuted_marked`); the second of two
joiners counts nothing (`C28_refuted_joiners`); a joined regional indicator counts as in the table, not as two
(`C28_refuted_region`).
-/
namespace Readline
open Spec

variable {C : Cfg} {adv : Rune → Int}

theorem receiveAll_append (s : Screen) (a c : List Rune) :
    receiveAll adv s (a ++ c) = (receiveAll adv s a).bind fun s' => receiveAll adv s' c := by
  induction a generalizing s with
  | nil => rfl
  | cons r rs ih =>
    show (receive adv s r).bind _ = ((receive adv s r).bind _).bind _
    cases receive adv s r with
    | none => rfl
    | some s' => exact ih s'

/-- What is printed, as code points. -/
def Printed (bs : Bytes) (rs : List Rune) : Prop := bs = encodeRunes rs ∧ ∀ r ∈ rs, isScalar r = true

theorem Printed.append {a c : Bytes} {r q : List Rune} (h1 : Printed a r) (h2 : Printed c q) :
    Printed (a ++ c) (r ++ q) := by
  refine ⟨by rw [h1.1, h2.1, encodeRunes_append], ?_⟩
  intro x hx
  rcases List.mem_append.mp hx with h | h
  · exact h1.2 x h
  · exact h2.2 x h

theorem Printed.rune {r : Rune} (h : isScalar r = true) : Printed (encodeRune r) [r] :=
  ⟨by simp [encodeRunes], by simpa using h⟩

theorem Printed.nil : Printed [] [] := ⟨rfl, by simp⟩

theorem Printed.runes {a : Bytes} {r : List Rune} (h : Printed a r) : runesOf a = r := by
  rw [h.1, runesOf_encodeRunes h.2]

/-- A position after which the cursor has moved by `n`, for code points. -/
def MovesR (adv : Rune → Int) (rs : List Rune) (n : Int) : Prop :=
  ∀ col saved, 0 ≤ col →
    ∃ saved', receiveAll adv { col, saved } rs = some { col := col + n, saved := saved' }

/-- What is printed consists of whole code points and moves the cursor by `n`. -/
def Prints (adv : Rune → Int) (bs : Bytes) (n : Int) : Prop :=
  ∃ rs, Printed bs rs ∧ MovesR adv rs n

theorem Prints.moves {bs : Bytes} {n : Int} (h : Prints adv bs n) : Moves adv bs n := by
  obtain ⟨rs, p, m⟩ := h
  intro col saved hc
  rw [p.runes]
  exact m col saved hc

theorem MovesR.append {a c : List Rune} {m n : Int} (hm : 0 ≤ m) (h1 : MovesR adv a m)
    (h2 : MovesR adv c n) : MovesR adv (a ++ c) (m + n) := by
  intro col saved hc
  obtain ⟨s1, e1⟩ := h1 col saved hc
  obtain ⟨s2, e2⟩ := h2 (col + m) s1 (by omega)
  refine ⟨s2, ?_⟩
  rw [receiveAll_append, e1]
  show receiveAll adv _ _ = _
  rw [e2, Int.add_assoc]

theorem Prints.append {a c : Bytes} {m n : Int} (hm : 0 ≤ m) (h1 : Prints adv a m)
    (h2 : Prints adv c n) : Prints adv (a ++ c) (m + n) := by
  obtain ⟨r1, p1, m1⟩ := h1
  obtain ⟨r2, p2, m2⟩ := h2
  exact ⟨r1 ++ r2, p1.append p2, m1.append hm m2⟩

theorem MovesR.one {r : Rune} (h : isControl r = false) : MovesR adv [r] (adv r) := by
  intro col saved hc
  refine ⟨saved, ?_⟩
  have h1 : r ≠ 0x1B := by rintro rfl; exact absurd h (by decide)
  have h2 : r ≠ 0x08 := by rintro rfl; exact absurd h (by decide)
  simp [receiveAll, receive, h1, h2, h]

theorem MovesR.nil : MovesR adv [] 0 := by
  intro col saved _
  exact ⟨saved, by simp [receiveAll]⟩

theorem MovesR.blanks (ha : Agrees C adv) (n : Nat) : MovesR adv (List.replicate n 0x20) n := by
  induction n with
  | zero => exact MovesR.nil
  | succ n ih =>
    have h1 := MovesR.one (adv := adv) (r := 0x20) (by decide)
    rw [ha.ascii 0x20 (by decide) (by decide)] at h1
    have := MovesR.append (by decide) h1 ih
    rw [List.replicate_succ]
    have e : ((n + 1 : Nat) : Int) = 1 + (n : Int) := by omega
    rw [e]
    exact this

theorem backs (n : Nat) (col saved : Int) (h : (n : Int) ≤ col) :
    receiveAll adv { col, saved } (List.replicate n 0x08) = some { col := col - n, saved } := by
  induction n generalizing col with
  | zero => simp [receiveAll]
  | succ n ih =>
    rw [List.replicate_succ]
    show (receive adv { col, saved } 0x08).bind _ = _
    have : receive adv { col, saved } 0x08 = some { col := col - 1, saved } := by
      simp only [receive]
      simp
      omega
    rw [this]
    show receiveAll adv _ _ = _
    rw [ih _ (by omega)]
    congr 2
    omega

/-- The cursor after printable code points. -/
theorem printables {rs : List Rune} (h : ∀ r ∈ rs, isControl r = false) (col saved : Int) :
    ∃ col', receiveAll adv { col, saved } rs = some { col := col', saved } := by
  induction rs generalizing col with
  | nil => exact ⟨col, rfl⟩
  | cons r rs ih =>
    have hr := h r (by simp)
    have h1 : r ≠ 0x1B := by rintro rfl; exact absurd hr (by decide)
    have h2 : r ≠ 0x08 := by rintro rfl; exact absurd hr (by decide)
    obtain ⟨c', e⟩ := ih (fun x hx => h x (by simp [hx])) (col + adv r)
    refine ⟨c', ?_⟩
    show (receive adv { col, saved } r).bind _ = _
    have : receive adv { col, saved } r = some { col := col + adv r, saved } := by
      simp [receive, h1, h2, hr]
    rw [this]
    exact e

/-- Save behind `n` columns, print anything, restore. -/
theorem MovesR.wrapped (ha : Agrees C adv) {n : Int} (hn : 0 ≤ n) {rs : List Rune}
    (h : ∀ r ∈ rs, isControl r = false) :
    MovesR adv (List.replicate n.toNat 0x20 ++ [0x1B, 0x37] ++ List.replicate n.toNat 0x08 ++ rs ++
      [0x1B, 0x38]) n := by
  intro col saved hc
  refine ⟨col + n, ?_⟩
  obtain ⟨s1, e1⟩ := MovesR.blanks ha n.toNat col saved hc
  have en : ((n.toNat : Nat) : Int) = n := Int.toNat_of_nonneg hn
  rw [en] at e1
  rw [receiveAll_append, receiveAll_append, receiveAll_append, receiveAll_append, e1]
  have e2 : receiveAll adv { col := col + n, saved := s1 } [0x1B, 0x37] =
      some { col := col + n, saved := col + n } := by
    simp [receiveAll, receive]
  have e3 := backs (adv := adv) n.toNat (col + n) (col + n) (by omega)
  obtain ⟨c', e4⟩ := printables (adv := adv) h (col + n - n.toNat) (col + n)
  have e5 : receiveAll adv { col := c', saved := col + n } [0x1B, 0x38] =
      some { col := col + n, saved := col + n } := by
    simp [receiveAll, receive]
  simp only [Option.bind_some, e2, e3, e4, e5]

/-! ## The units -/

theorem saveCursorAfterN_printed (n : Int) : Printed (saveCursorAfterN n)
    (List.replicate n.toNat 0x20 ++ [0x1B, 0x37] ++ List.replicate n.toNat 0x08) := by
  have rep : ∀ (k : Nat) (b : UInt8) (r : Rune), encodeRune r = [b] → isScalar r = true →
      Printed (List.replicate k b) (List.replicate k r) := by
    intro k b r e hs
    induction k with
    | zero => exact Printed.nil
    | succ k ih =>
      rw [List.replicate_succ, List.replicate_succ]
      have h1 := Printed.rune hs
      rw [e] at h1
      exact h1.append ih
  unfold saveCursorAfterN
  refine (Printed.append (rep _ _ _ (by decide) (by decide)) ?_).append
    (rep _ _ _ (by decide) (by decide))
  exact ⟨by decide, by decide⟩

/-- Save, print some text, restore. -/
theorem wrapped_moves (ha : Agrees C adv) {n : Int} (hn : 0 ≤ n) {t : Bytes} {rs : List Rune}
    (hp : Printed t rs) (h : ∀ r ∈ rs, isControl r = false) :
    Prints adv (saveCursorAfterN n ++ t ++ restoreCursor) n := by
  have hr : Printed restoreCursor [0x1B, 0x38] := ⟨by decide, by decide⟩
  exact ⟨_, ((saveCursorAfterN_printed n).append hp).append hr, MovesR.wrapped ha hn h⟩

/-! ### Escaped code points -/

theorem hexDigit_printable (d : Nat) (h : d < 16) :
    ∃ r : Rune, encodeRune r = [hexDigit d] ∧ 0x20 ≤ r ∧ r ≤ 0x7E := by
  have : ∀ d : Fin 16, ∃ r : Rune, encodeRune r = [hexDigit d] ∧ 0x20 ≤ r ∧ r ≤ 0x7E := by
    intro d
    refine ⟨(hexDigit d).toNat, ?_⟩
    revert d
    decide +kernel
  exact this ⟨d, h⟩

/-- ASCII text of length `n`. -/
def AsciiText (bs : Bytes) (n : Int) : Prop :=
  ∃ rs, Printed bs rs ∧ (∀ r ∈ rs, 0x20 ≤ r ∧ r ≤ 0x7E) ∧ (rs.length : Int) = n

theorem AsciiText.append {a c : Bytes} {m n : Int} (h1 : AsciiText a m) (h2 : AsciiText c n) :
    AsciiText (a ++ c) (m + n) := by
  obtain ⟨r1, p1, q1, l1⟩ := h1
  obtain ⟨r2, p2, q2, l2⟩ := h2
  refine ⟨r1 ++ r2, p1.append p2, ?_, by simp; omega⟩
  intro r hr
  rcases List.mem_append.mp hr with h | h
  · exact q1 r h
  · exact q2 r h

theorem AsciiText.one {r : Rune} (h1 : 0x20 ≤ r) (h2 : r ≤ 0x7E) : AsciiText (encodeRune r) 1 :=
  ⟨[r], Printed.rune (isScalar_iff.mpr (by omega)), by simpa using ⟨h1, h2⟩, rfl⟩

theorem AsciiText.movesR (ha : Agrees C adv) {rs : List Rune}
    (h : ∀ r ∈ rs, 0x20 ≤ r ∧ r ≤ 0x7E) : MovesR adv rs rs.length := by
  induction rs with
  | nil => exact MovesR.nil
  | cons r rs ih =>
    obtain ⟨h1, h2⟩ := h r (by simp)
    have h0 := MovesR.one (adv := adv) (r := r) (by unfold isControl; simp; omega)
    rw [ha.ascii r h1 h2] at h0
    have := MovesR.append (by decide) h0 (ih fun x hx => h x (by simp [hx]))
    have e : ((r :: rs).length : Int) = 1 + rs.length := by simp; omega
    rw [e]
    exact this

theorem AsciiText.moves (ha : Agrees C adv) {bs : Bytes} {n : Int} (h : AsciiText bs n) :
    Prints adv bs n := by
  obtain ⟨rs, p, q, l⟩ := h
  rw [← l]
  exact ⟨rs, p, AsciiText.movesR ha q⟩

theorem lenEscapedLoop_add (c : Nat) (w : Int) : lenEscapedLoop c w = lenEscapedLoop c 0 + w := by
  induction c using Nat.strongRecOn generalizing w with
  | ind c ih =>
    rw [lenEscapedLoop.eq_def c w, lenEscapedLoop.eq_def c 0]
    split
    · rw [ih (c / 16) (by omega), ih (c / 16) (by omega) (0 + 1)]
      omega
    · omega

theorem hexUpper_ascii (n : Nat) : AsciiText (hexUpper n) (1 + lenEscapedLoop n 0) := by
  induction n using Nat.strongRecOn with
  | ind n ih =>
    have one : ∀ d, d < 16 → AsciiText [hexDigit d] 1 := by
      intro d hd
      obtain ⟨r, e, h1, h2⟩ := hexDigit_printable d hd
      rw [← e]
      exact AsciiText.one h1 h2
    rw [hexUpper.eq_def, lenEscapedLoop.eq_def]
    split
    · rename_i h
      rw [if_neg (by omega)]
      exact one n h
    · rename_i h
      rw [if_pos (by omega), lenEscapedLoop_add]
      have := (ih (n / 16) (by omega)).append (one (n % 16) (by omega))
      have e : 1 + (lenEscapedLoop (n / 16) 0 + (0 + 1)) = 1 + lenEscapedLoop (n / 16) 0 + 1 := by omega
      rw [e]
      exact this

theorem esc_ascii (r : Rune) : AsciiText ([0x3C] ++ hexUpper r ++ [0x3E]) (lenEscaped r) := by
  have h1 : AsciiText [0x3C] 1 := by
    have := AsciiText.one (r := 0x3C) (by decide) (by decide)
    exact this
  have h2 : AsciiText [0x3E] 1 := by
    have := AsciiText.one (r := 0x3E) (by decide) (by decide)
    exact this
  have := (h1.append (hexUpper_ascii r)).append h2
  unfold lenEscaped
  rw [lenEscapedLoop_add]
  have e : lenEscapedLoop r 0 + 3 = 1 + (1 + lenEscapedLoop r 0) + 1 := by omega
  rw [e]
  exact this

theorem ctrl_ascii (r : Rune) (h : r < 0x20) : AsciiText [0x5E, 0x41 + (UInt8.ofNat r - 1)] 2 := by
  have : ∀ r : Fin 32, encodeRunes [0x5E, (0x41 + (UInt8.ofNat r - 1)).toNat] =
      [0x5E, 0x41 + (UInt8.ofNat r - 1)] ∧ 0x20 ≤ (0x41 + (UInt8.ofNat r - 1)).toNat ∧
      (0x41 + (UInt8.ofNat r - 1)).toNat ≤ 0x7E := by decide +kernel
  obtain ⟨e, h1, h2⟩ := this ⟨r, h⟩
  refine ⟨[0x5E, (0x41 + (UInt8.ofNat r - 1)).toNat], ⟨e.symm, ?_⟩, ?_, rfl⟩
  · intro x hx
    simp only [List.mem_cons, List.not_mem_nil, or_false] at hx
    rcases hx with rfl | rfl
    · decide
    · exact isScalar_iff.mpr (by dsimp only at h2; omega)
  · intro x hx
    simp only [List.mem_cons, List.not_mem_nil, or_false] at hx
    rcases hx with rfl | rfl
    · exact ⟨by decide, by decide⟩
    · exact ⟨h1, h2⟩

/-- A printable code point of the table. -/
theorem rune_prints {r : Rune} (hs : isScalar r = true) (hc : isControl r = false) :
    Prints adv (encodeRune r) (adv r) := ⟨[r], Printed.rune hs, MovesR.one hc⟩

theorem tab_prints (ha : Agrees C adv) {p : Int} (hp : (Moji.tab p).printPanics = false) :
    Prints adv ((Moji.tab p).print C) ((Moji.tab p).width C) := by
  simp only [Moji.printPanics, decide_eq_false_iff_not] at hp
  show Prints adv (List.replicate (4 - Int.tmod p 4).toNat 0x20) (4 - Int.tmod p 4)
  have hlt : Int.tmod p 4 < 4 := Int.tmod_lt_of_pos _ (by decide)
  have hn : 0 ≤ 4 - Int.tmod p 4 := by omega
  generalize hg : 4 - Int.tmod p 4 = n at hn ⊢
  have hA : AsciiText (List.replicate n.toNat 0x20) n.toNat := by
    generalize n.toNat = k
    induction k with
    | zero => exact ⟨[], Printed.nil, by simp, rfl⟩
    | succ k ih =>
      rw [List.replicate_succ]
      have h1 : AsciiText [0x20] 1 := AsciiText.one (r := 0x20) (by decide) (by decide)
      have := h1.append ih
      have e : ((k + 1 : Nat) : Int) = 1 + k := by omega
      rw [e]
      exact this
  rw [Int.toNat_of_nonneg hn] at hA
  exact hA.moves ha

theorem rune2moji_prints (ha : Agrees C adv) (ht : SaneTable C) {r : Rune} (hs : isScalar r = true)
    (pos : Int) (hp : (rune2moji C r pos).printPanics = false) :
    Prints adv ((rune2moji C r pos).print C) ((rune2moji C r pos).width C) := by
  unfold rune2moji at hp ⊢
  split at hp
  · rename_i h9
    rw [if_pos h9]
    exact tab_prints ha hp
  · rename_i h9
    rw [if_neg h9]
    split
    · rename_i h; exact (ctrl_ascii r h).moves ha
    · rename_i h20
      split
      · rename_i hbox
        have hc : isControl r = false := by unfold isControl; simp; omega
        have := wrapped_moves (n := 2) ha (by decide) (Printed.rune hs) (by simpa using hc)
        exact this
      · split
        · exact (esc_ascii r).moves ha
        · rename_i hesc
          have hw : C.width r ≠ 0 := by
            intro h0
            apply hesc
            unfold isToBeEscaped
            simp [h0]
          have hc : isControl r = false := by
            unfold isControl
            by_cases h : 0x7F ≤ r ∧ r ≤ 0x9F
            · exact absurd (ht.ctrl r h.1 h.2) hw
            · simp; omega
          split
          · rename_i hri
            have hreg : regional r = true := by unfold regional; simp; omega
            have := rune_prints (adv := adv) hs hc
            rw [ha.region r hreg] at this
            exact this
          · rename_i hri
            have hreg : regional r = false := by unfold regional; simp; omega
            have wrap : Prints adv ((Moji.flag r).print C) ((Moji.flag r).width C) :=
              wrapped_moves (n := 2) ha (by decide) (Printed.rune hs) (by simpa using hc)
            split
            · exact wrap
            · split
              · exact wrap
              · have := rune_prints (adv := adv) hs hc
                by_cases hj : r = 0x200D
                · subst hj; exact absurd ht.joiner hw
                · rw [ha.table r hc hreg hj] at this
                  exact this

/-- **C28** for a unit made of one code point, in every position where it can be printed. -/
theorem C28_rune (ha : Agrees C adv) (ht : SaneTable C) {r : Rune} (hs : isScalar r = true)
    (pos : Int) (hp : (rune2moji C r pos).printPanics = false) :
    Moves adv ((rune2moji C r pos).print C) ((rune2moji C r pos).width C) :=
  (rune2moji_prints ha ht hs pos hp).moves

/-! ## Joined units -/

/-- Units that are printed as they are: no marks, no save and restore. -/
inductive Straight (C : Cfg) (adv : Rune → Int) : Moji → Prop where
  | raw {r : Rune} : isScalar r = true → isControl r = false → adv r = C.width r → Straight C adv (.raw r)
  | ri {r : Rune} : isScalar r = true → regional r = true → Straight C adv (.ri r)
  | zwj {a b : Moji} : Straight C adv a → Straight C adv b → Straight C adv (.zwj a b)
  | modi {a b : Moji} : Straight C adv a → Straight C adv b → Straight C adv (.modi a b)

/-- The code points of a unit are printable scalar values. -/
def PrintableText (m : Moji) : Prop := ∃ rs, Printed m.write rs ∧ ∀ r ∈ rs, isControl r = false

/-- Units made of printable code points whose modifiers stand behind units that are printed as
they are. -/
inductive Tame (C : Cfg) (adv : Rune → Int) : Moji → Prop where
  | one {r : Rune} (pos : Int) : isScalar r = true → (rune2moji C r pos).printPanics = false →
      Tame C adv (rune2moji C r pos)
  | tab {p : Int} : (Moji.tab p).printPanics = false → Tame C adv (.tab p)
  | straight {m : Moji} : Straight C adv m → Tame C adv m
  | zwj {a b : Moji} : Tame C adv a → Tame C adv b → ((∃ r, a = .flag r) → PrintableText a) →
      PrintableText b → Tame C adv (.zwj a b)
  | vari {a b : Moji} : 0 ≤ a.width C → PrintableText a → PrintableText b → Tame C adv (.vari a b)

theorem Straight.flag {m : Moji} (h : Straight C adv m) (r : Rune) : m ≠ .flag r := by
  cases h <;> simp

theorem regional_control {r : Rune} (h : regional r = true) : isControl r = false := by
  unfold regional at h
  unfold isControl
  simp at *
  omega

theorem Straight.spec (ha : Agrees C adv) (ht : SaneTable C) {m : Moji} (h : Straight C adv m) :
    0 ≤ m.width C ∧ ∃ rs, Printed m.write rs ∧ MovesR adv rs (m.width C) ∧ ∀ r ∈ rs, isControl r = false := by
  have hj : MovesR adv [0x200D] (adv 0x200D) := MovesR.one (by decide)
  induction h with
  | raw hs hc he =>
    refine ⟨ht.nonneg _, [_], Printed.rune hs, ?_, by simpa using hc⟩
    have := MovesR.one (adv := adv) hc
    rw [he] at this
    exact this
  | ri hs hr =>
    refine ⟨by show (0:Int) ≤ 2; decide, [_], Printed.rune hs, ?_, by simpa using regional_control hr⟩
    have := MovesR.one (adv := adv) (regional_control hr)
    rw [ha.region _ hr] at this
    exact this
  | zwj h1 h2 i1 i2 =>
    obtain ⟨n1, r1, p1, m1, c1⟩ := i1
    obtain ⟨n2, r2, p2, m2, c2⟩ := i2
    have hpos := ha.joiner
    refine ⟨by show 0 ≤ C.zwjWidth _ _; rw [ha.joint]; omega, r1 ++ [0x200D] ++ r2, (p1.append (Printed.rune (by decide))).append p2, ?_, ?_⟩
    · show MovesR adv _ (C.zwjWidth _ _)
      rw [ha.joint]
      exact (m1.append n1 hj).append (by omega) m2
    · intro r hr
      simp only [List.mem_append, List.mem_singleton] at hr
      rcases hr with (h | rfl) | h
      · exact c1 r h
      · decide
      · exact c2 r h
  | modi h1 h2 i1 i2 =>
    obtain ⟨n1, r1, p1, m1, c1⟩ := i1
    obtain ⟨n2, r2, p2, m2, c2⟩ := i2
    refine ⟨by show (0:Int) ≤ _ + _; omega, r1 ++ r2, p1.append p2, m1.append n1 m2, ?_⟩
    intro r hr
    rcases List.mem_append.mp hr with h | h
    · exact c1 r h
    · exact c2 r h

theorem rune2moji_width (ht : SaneTable C) (r : Rune) (pos : Int) : 0 ≤ (rune2moji C r pos).width C := by
  have hl : ∀ c, 0 ≤ lenEscapedLoop c 0 := by
    intro c
    induction c using Nat.strongRecOn with
    | ind c ih =>
      rw [lenEscapedLoop.eq_def]
      split
      · rw [lenEscapedLoop_add]
        have := ih (c / 16) (by omega)
        omega
      · omega
  unfold rune2moji
  repeat' split
  all_goals simp only [Moji.width]
  · have : Int.tmod (toInt16 pos) 4 < 4 := Int.tmod_lt_of_pos _ (by decide)
    omega
  · decide
  · decide
  · unfold lenEscaped; rw [lenEscapedLoop_add]; have := hl r; omega
  · decide
  · decide
  · decide
  · exact ht.nonneg r

theorem print_zwj {a b : Moji} (h : ∀ r, a ≠ .flag r) :
    (Moji.zwj a b).print C = a.print C ++ encodeRune zwjRune ++ b.print C := by
  cases a <;> first | rfl | exact absurd rfl (h _)

theorem Straight.print_eq {m : Moji} (h : Straight C adv m) : m.print C = m.write := by
  induction h with
  | raw => rfl
  | ri => rfl
  | zwj h1 h2 i1 i2 =>
    rename_i a b
    cases h1 with
    | raw => simp only [Moji.print, Moji.write] at *; rw [i2]
    | ri => simp only [Moji.print, Moji.write] at *; rw [i2]
    | zwj => rw [print_zwj (by simp), i1, i2]; rfl
    | modi => rw [print_zwj (by simp), i1, i2]; rfl
  | modi => rfl

theorem Tame.prints (ha : Agrees C adv) (ht : SaneTable C) {m : Moji} (h : Tame C adv m) :
    0 ≤ m.width C ∧ Prints adv (m.print C) (m.width C) := by
  have hj : Prints adv (encodeRune zwjRune) (adv 0x200D) := rune_prints (by decide) (by decide)
  have hpos := ha.joiner
  induction h with
  | one pos hs hp => exact ⟨rune2moji_width ht _ _, rune2moji_prints ha ht hs pos hp⟩
  | tab hp =>
    refine ⟨?_, tab_prints ha hp⟩
    rename_i p
    have : Int.tmod p 4 < 4 := Int.tmod_lt_of_pos _ (by decide)
    show 0 ≤ 4 - Int.tmod p 4
    omega
  | straight h =>
    obtain ⟨n, rs, p, m, _⟩ := h.spec ha ht
    exact ⟨n, rs, by rw [h.print_eq]; exact p, m⟩
  | zwj h1 h2 t1 t2 i1 i2 =>
    rename_i a b
    obtain ⟨n1, p1⟩ := i1
    obtain ⟨n2, p2⟩ := i2
    have hw : (Moji.zwj a b).width C = a.width C + adv 0x200D + b.width C := ha.joint _ _
    have hn : 0 ≤ (Moji.zwj a b).width C := by rw [hw]; omega
    refine ⟨hn, ?_⟩
    by_cases hf : ∃ r, a = .flag r
    · obtain ⟨r, rfl⟩ := hf
      obtain ⟨r1, q1, c1⟩ := t1 ⟨r, rfl⟩
      obtain ⟨r2, q2, c2⟩ := t2
      have q := (q1.append (Printed.rune (r := zwjRune) (by decide))).append q2
      have := wrapped_moves ha hn q (by
        intro x hx
        simp only [List.mem_append, List.mem_singleton] at hx
        rcases hx with (h | rfl) | h
        · exact c1 x h
        · decide
        · exact c2 x h)
      rw [Moji.print]
      simp only [Moji.write, ← List.append_assoc] at this ⊢
      exact this
    · rw [print_zwj (fun r e => hf ⟨r, e⟩), hw]
      exact (p1.append n1 hj).append (by omega) p2
  | vari hn t1 t2 =>
    rename_i a b
    obtain ⟨r1, q1, c1⟩ := t1
    obtain ⟨r2, q2, c2⟩ := t2
    have hn : 0 ≤ (Moji.vari a b).width C := by
      cases a <;> simp only [Moji.width] at * <;> omega
    refine ⟨hn, ?_⟩
    have := wrapped_moves ha hn (q1.append q2) (by
        intro x hx
        rcases List.mem_append.mp hx with h | h
        · exact c1 x h
        · exact c2 x h)
    rw [Moji.print]
    simp only [← List.append_assoc] at this ⊢
    exact this

/-- **C28** for tame units. -/
theorem C28_partial (ha : Agrees C adv) (ht : SaneTable C) {m : Moji} (h : Tame C adv m) :
    Moves adv (m.print C) (m.width C) := (h.prints ha ht).2.moves

/-! ## Which units are tame -/

theorem Printed.self {bs : Bytes} {rs : List Rune} (h : Printed bs rs) : Printed bs (runesOf bs) := by
  rw [h.runes]; exact h

/-- The code points a unit is written with. -/
theorem Built.text {m : Moji} (h : Built C m) : Printed m.write (runesOf m.write) ∧
    ∃ r rs, runesOf m.write = r :: rs := by
  induction h with
  | base hr =>
    rename_i r
    have : (rune2moji C r 0).norm.write = encodeRune r := by
      rw [Moji.norm_write]; exact rune2moji_write C r 0
    rw [this]
    exact ⟨(Printed.rune hr).self, r, [], (Printed.rune hr).runes⟩
  | zwj _ _ hn ih =>
    obtain ⟨p, r, rs, q⟩ := ih
    have := (p.append (Printed.rune (r := zwjRune) (by decide))).append (Printed.rune hn)
    exact ⟨this.self, r, rs ++ [zwjRune] ++ [_], by rw [q] at this; exact this.runes⟩
  | vari _ hr _ _ ih =>
    obtain ⟨p, r, rs, q⟩ := ih
    have := p.append (Printed.rune hr)
    exact ⟨this.self, r, rs ++ [_], by rw [q] at this; exact this.runes⟩
  | modi _ hr _ _ _ ih =>
    obtain ⟨p, r, rs, q⟩ := ih
    have := p.append (Printed.rune hr)
    exact ⟨this.self, r, rs ++ [_], by rw [q] at this; exact this.runes⟩

theorem norm_base {m : Moji} {r : Rune} (h : m.norm = (rune2moji C r 0).norm) :
    (r = 9 ∧ ∃ p, m = .tab p) ∨ (r ≠ 9 ∧ m = rune2moji C r 0) := by
  by_cases h9 : r = 9
  · left
    refine ⟨h9, ?_⟩
    subst h9
    cases m <;> first | exact ⟨_, rfl⟩ | (simp [Moji.norm, rune2moji] at h)
  · right
    refine ⟨h9, ?_⟩
    unfold rune2moji at h ⊢
    rw [if_neg h9] at h ⊢
    repeat' split at h
    all_goals simp only [*, and_self, if_pos, if_neg, not_false_eq_true]
    all_goals cases m <;> simp_all [Moji.norm]

/-- The code point is sent as it is when it begins a unit. -/
def Spec.SentAsIs (C : Cfg) (r : Rune) : Prop := rune2moji C r 0 = .raw r ∨ rune2moji C r 0 = .ri r

/-- The code points are sent as they are and one after the other. -/
def Spec.Straightforward (C : Cfg) (rs : List Rune) : Prop :=
  ∃ r rest, rs = r :: rest ∧ SentAsIs C r ∧ ∀ v ∈ rest, isVariationSelectorLike C v = false

/-- Units without the combinations for which the claim is false. -/
structure Spec.Orderly (C : Cfg) (rs : List Rune) : Prop where
  /-- control characters only as the first code point -/
  tail : ∀ r ∈ rs.tail, isControl r = false
  /-- and then there are neither variation selectors nor modifiers -/
  head : ∀ r rest, rs = r :: rest → isControl r = true →
    ∀ v ∈ rest, isVariationSelectorLike C v = false ∧ isEmojiModifier C v = false
  /-- joined regional indicators only if the table gives them two columns -/
  region : ∀ r ∈ rs.tail, regional r = true → C.width r = 2
  /-- no two joiners in a row -/
  joiners : ∀ x y, rs ≠ x ++ [0x200D, 0x200D] ++ y
  /-- modifiers only behind what is sent as it is -/
  modifiers : ∀ x r y, rs = x ++ r :: y → isEmojiModifier C r = true → x = [] ∨ Straightforward C x

theorem Spec.Orderly.prefix {a c : List Rune} (h : Orderly C (a ++ c)) (ha : a ≠ []) : Orderly C a := by
  obtain ⟨r, a', rfl⟩ := List.exists_cons_of_ne_nil ha
  refine ⟨fun x hx => h.tail x (by simp at hx ⊢; exact .inl hx), ?_,
    fun x hx => h.region x (by simp at hx ⊢; exact .inl hx), ?_, ?_⟩
  · intro q rest e hc v hv
    exact h.head q (rest ++ c) (by rw [e]; rfl) hc v (by simp [hv])
  · intro x y e
    exact h.joiners x (y ++ c) (by rw [e]; simp)
  · intro x q y e hm
    exact h.modifiers x q (y ++ c) (by rw [e]; simp) hm

theorem Spec.Straightforward.prefix {a c : List Rune} (h : Straightforward C (a ++ c)) (ha : a ≠ []) :
    Straightforward C a := by
  obtain ⟨r, a', rfl⟩ := List.exists_cons_of_ne_nil ha
  obtain ⟨q, rest, e, h1, h2⟩ := h
  rw [List.cons_append, List.cons.injEq] at e
  obtain ⟨rfl, rfl⟩ := e
  exact ⟨r, a', rfl, h1, fun v hv => h2 v (by simp [hv])⟩

/-- A joined code point. -/
theorem joined_raw (ha : Agrees C adv) {n : Rune} (hs : isScalar n = true) (hc : isControl n = false)
    (hr : regional n = true → C.width n = 2) (hj : n ≠ 0x200D) : Straight C adv (.raw n) := by
  refine Straight.raw hs hc ?_
  by_cases h : regional n = true
  · rw [ha.region n h, hr h]
  · exact ha.table n hc (by simpa using h) hj

/-- A first code point. -/
theorem first_straight (ha : Agrees C adv) (ht : SaneTable C) {r : Rune} (hs : isScalar r = true)
    (h : SentAsIs C r) : Straight C adv (rune2moji C r 0) := by
  rcases h with h | h
  · have h' := h
    rw [h]
    unfold rune2moji at h'
    split at h'
    · cases h'
    split at h'
    · cases h'
    rename_i h9 h20
    split at h'
    · cases h'
    split at h'
    · cases h'
    rename_i hesc
    split at h'
    · cases h'
    rename_i hri
    have hw : C.width r ≠ 0 := by
      intro h0
      apply hesc
      unfold isToBeEscaped
      simp [h0]
    have hc : isControl r = false := by
      unfold isControl
      by_cases h : 0x7F ≤ r ∧ r ≤ 0x9F
      · exact absurd (ht.ctrl r h.1 h.2) hw
      · simp; omega
    have hreg : regional r = false := by unfold regional; simp; omega
    refine Straight.raw hs hc (ha.table r hc hreg ?_)
    rintro rfl
    exact hw ht.joiner
  · have h' := h
    rw [h]
    refine Straight.ri hs ?_
    unfold rune2moji at h'
    repeat' split at h'
    all_goals first | cases h' | skip
    rename_i h1
    unfold regional
    simp
    exact h1

/-- No control character: the text can be printed. -/
theorem Built.printable {n : Moji} (h : Built C n) {m : Moji} (hm : m.norm = n)
    (hq : Orderly C (runesOf n.write))
    (hc : ∀ r rest, runesOf n.write = r :: rest → isControl r = false) : PrintableText m := by
  obtain ⟨p, q0, qs, e0⟩ := h.text
  refine ⟨runesOf n.write, ?_, ?_⟩
  · rw [← Moji.norm_write m, hm]; exact p
  · intro r hr
    have ht := hq.tail r
    have h0 := hc q0 qs e0
    rw [e0] at hr ht
    rcases List.mem_cons.mp hr with rfl | hr
    · exact h0
    · exact ht hr

theorem Built.width_nonneg (ha : Agrees C adv) (ht : SaneTable C) {n : Moji} (h : Built C n) {m : Moji}
    (hm : m.norm = n) : 0 ≤ m.width C := by
  have hpos := ha.joiner
  induction h generalizing m with
  | base hr =>
    rcases norm_base hm with ⟨rfl, p, rfl⟩ | ⟨h9, rfl⟩
    · have : Int.tmod p 4 < 4 := Int.tmod_lt_of_pos _ (by decide)
      show 0 ≤ 4 - Int.tmod p 4
      omega
    · exact rune2moji_width ht _ _
  | zwj _ _ hn ih =>
    cases m with
    | zwj a b =>
      simp only [Moji.norm, Moji.zwj.injEq] at hm
      have h1 := ih hm.1
      have hb : 0 ≤ b.width C := by
        cases b <;> simp [Moji.norm] at hm
        exact ht.nonneg _
      show 0 ≤ C.zwjWidth _ _
      rw [ha.joint]
      omega
    | _ => simp [Moji.norm] at hm
  | vari _ _ _ _ ih =>
    cases m with
    | vari a b =>
      simp only [Moji.norm, Moji.vari.injEq] at hm
      have h1 := ih hm.1
      cases a <;> simp only [Moji.width] at * <;> omega
    | _ => simp [Moji.norm] at hm
  | modi _ _ _ _ _ ih =>
    cases m with
    | modi a b =>
      simp only [Moji.norm, Moji.modi.injEq] at hm
      have h1 := ih hm.1
      have hb : 0 ≤ b.width C := by
        cases b <;> simp [Moji.norm] at hm
        exact ht.nonneg _
      show 0 ≤ a.width C + b.width C
      omega
    | _ => simp [Moji.norm] at hm

theorem Built.flag_text {r : Rune} (h : Built C (.flag r)) : isScalar r = true ∧ isControl r = false := by
  generalize hg : Moji.flag r = n at h
  cases h with
  | base hr =>
    rename_i x
    rcases norm_base (m := .flag r) hg with ⟨_, p, hp⟩ | ⟨h9, hx⟩
    · cases hp
    · have hw := congrArg Moji.write hx
      rw [rune2moji_write] at hw
      have e : r = x := by
        unfold rune2moji at hx
        repeat' split at hx
        all_goals first | (cases hx; rfl) | cases hx
      subst e
      refine ⟨hr, ?_⟩
      unfold rune2moji at hx
      unfold isControl
      repeat' split at hx
      all_goals first
        | cases hx; done
        | (simp; omega)
  | _ => cases hg

theorem Built.straight (ha : Agrees C adv) (ht : SaneTable C) {n : Moji} (h : Built C n) {m : Moji}
    (hm : m.norm = n) (hq : Orderly C (runesOf n.write)) (hs : Straightforward C (runesOf n.write)) :
    Straight C adv m := by
  induction h generalizing m with
  | base hr =>
    rename_i r
    have hw : (rune2moji C r 0).norm.write = encodeRune r := by
      rw [Moji.norm_write]; exact rune2moji_write C r 0
    rw [hw, (Printed.rune hr).runes] at hs
    obtain ⟨q, rest, e, h1, -⟩ := hs
    obtain ⟨rfl, -⟩ := List.cons.inj e
    rcases norm_base hm with ⟨rfl, p, rfl⟩ | ⟨h9, rfl⟩
    · rcases h1 with h1 | h1 <;> cases h1
    · exact first_straight ha ht hr h1
  | zwj hz hb hn ih =>
    rename_i m' n
    obtain ⟨p, q0, qs, e0⟩ := hb.text
    have hpr := (p.append (Printed.rune (r := zwjRune) (by decide))).append (Printed.rune hn)
    have e : runesOf (Moji.zwj m' (.raw n)).write = runesOf m'.write ++ ([zwjRune] ++ [n]) := by
      rw [← List.append_assoc]; exact hpr.runes
    have hne : runesOf m'.write ≠ [] := by rw [e0]; simp
    rw [e] at hq hs
    cases m with
    | zwj a b =>
      simp only [Moji.norm, Moji.zwj.injEq] at hm
      have hb' : b = .raw n := by
        cases b <;> simp [Moji.norm] at hm
        exact congrArg Moji.raw hm.2
      subst hb'
      have hnz : n ≠ 0x200D := by
        rintro rfl
        exact hq.joiners (runesOf m'.write) [] (by simp [zwjRune])
      have hmem : n ∈ (runesOf m'.write ++ ([zwjRune] ++ [n])).tail := by rw [e0]; simp
      exact Straight.zwj (ih hm.1 (hq.prefix hne) (hs.prefix hne))
        (joined_raw ha hn (hq.tail n hmem) (hq.region n hmem) hnz)
    | _ => simp [Moji.norm] at hm
  | @vari m' r hb hr _ hvs ih =>
    obtain ⟨p, q0, qs, e0⟩ := hb.text
    have e : runesOf (Moji.vari m' (.raw r)).write = runesOf m'.write ++ [r] :=
      (p.append (Printed.rune hr)).runes
    rw [e, e0] at hs
    obtain ⟨x, rest, ex, -, h2⟩ := hs
    rw [List.cons_append] at ex
    obtain ⟨-, rfl⟩ := List.cons.inj ex
    have := h2 r (by simp)
    rw [hvs] at this
    cases this
  | @modi m' r hb hr _ hvs hmod ih =>
    obtain ⟨p, q0, qs, e0⟩ := hb.text
    have e : runesOf (Moji.modi m' (.raw r)).write = runesOf m'.write ++ [r] :=
      (p.append (Printed.rune hr)).runes
    have hne : runesOf m'.write ≠ [] := by rw [e0]; simp
    rw [e] at hq hs
    have hmem : r ∈ (runesOf m'.write ++ [r]).tail := by rw [e0]; simp
    cases m with
    | modi a b =>
      simp only [Moji.norm, Moji.modi.injEq] at hm
      have hb' : b = .raw r := by
        cases b <;> simp [Moji.norm] at hm
        exact congrArg Moji.raw hm.2
      subst hb'
      have hrz : r ≠ 0x200D := by
        rintro rfl
        simp [isEmojiModifier] at hmod
      exact Straight.modi (ih hm.1 (hq.prefix hne) (hs.prefix hne))
        (joined_raw ha hr (hq.tail r hmem) (hq.region r hmem) hrz)
    | _ => simp [Moji.norm] at hm

theorem Built.tame (ha : Agrees C adv) (ht : SaneTable C) {n : Moji} (h : Built C n) {m : Moji}
    (hm : m.norm = n) (hq : Orderly C (runesOf n.write)) (hp : m.printPanics = false) : Tame C adv m := by
  induction h generalizing m with
  | base hr =>
    rcases norm_base hm with ⟨rfl, p, rfl⟩ | ⟨h9, rfl⟩
    · exact Tame.tab hp
    · exact Tame.one 0 hr hp
  | zwj hz hb hn ih =>
    rename_i m' n
    obtain ⟨p, q0, qs, e0⟩ := hb.text
    have hpr := (p.append (Printed.rune (r := zwjRune) (by decide))).append (Printed.rune hn)
    have e : runesOf (Moji.zwj m' (.raw n)).write = runesOf m'.write ++ ([zwjRune] ++ [n]) := by
      rw [← List.append_assoc]; exact hpr.runes
    have hne : runesOf m'.write ≠ [] := by rw [e0]; simp
    rw [e] at hq
    cases m with
    | zwj a b =>
      simp only [Moji.norm, Moji.zwj.injEq] at hm
      have hb' : b = .raw n := by
        cases b <;> simp [Moji.norm] at hm
        exact congrArg Moji.raw hm.2
      subst hb'
      have hp1 : a.printPanics = false := by
        cases a <;> first | rfl | simpa [Moji.printPanics] using hp
      have hnz : n ≠ 0x200D := by
        rintro rfl
        exact hq.joiners (runesOf m'.write) [] (by simp [zwjRune])
      have hmem : n ∈ (runesOf m'.write ++ ([zwjRune] ++ [n])).tail := by rw [e0]; simp
      have hcn := hq.tail n hmem
      have pn : PrintableText (.raw n) := ⟨[n], Printed.rune hn, by simpa using hcn⟩
      refine Tame.zwj (ih hm.1 (hq.prefix hne) hp1)
        (Tame.straight (joined_raw ha hn hcn (hq.region n hmem) hnz)) ?_ pn
      rintro ⟨r, rfl⟩
      have hfl : m' = .flag r := hm.1.symm
      rw [hfl] at hb
      obtain ⟨e1, e2⟩ := hb.flag_text
      exact ⟨[r], Printed.rune e1, by simpa using e2⟩
    | _ => simp [Moji.norm] at hm
  | @vari m' r hb hr _ hvs ih =>
    obtain ⟨p, q0, qs, e0⟩ := hb.text
    have e : runesOf (Moji.vari m' (.raw r)).write = runesOf m'.write ++ [r] :=
      (p.append (Printed.rune hr)).runes
    have hne : runesOf m'.write ≠ [] := by rw [e0]; simp
    rw [e] at hq
    have hmem : r ∈ (runesOf m'.write ++ [r]).tail := by rw [e0]; simp
    cases m with
    | vari a b =>
      simp only [Moji.norm, Moji.vari.injEq] at hm
      have hb' : b = .raw r := by
        cases b <;> simp [Moji.norm] at hm
        exact congrArg Moji.raw hm.2
      subst hb'
      have hctl : ∀ x rest, runesOf m'.write = x :: rest → isControl x = false := by
        intro x rest ex
        by_cases hx : isControl x = true
        · have := (hq.head x (rest ++ [r]) (by rw [ex]; rfl) hx r (by simp)).1
          rw [hvs] at this
          cases this
        · simpa using hx
      have pn : PrintableText (.raw r) := ⟨[r], Printed.rune hr, by simpa using hq.tail r hmem⟩
      exact Tame.vari (hb.width_nonneg ha ht hm.1) (hb.printable hm.1 (hq.prefix hne) hctl) pn
    | _ => simp [Moji.norm] at hm
  | @modi m' r hb hr h1 hvs hmod ih =>
    obtain ⟨p, q0, qs, e0⟩ := hb.text
    have e : runesOf (Moji.modi m' (.raw r)).write = runesOf m'.write ++ [r] :=
      (p.append (Printed.rune hr)).runes
    have hne : runesOf m'.write ≠ [] := by rw [e0]; simp
    have hq' := hq
    rw [e] at hq
    obtain ⟨x, rest, e2, h2, h3⟩ := (hq.modifiers (runesOf m'.write) r [] rfl hmod).resolve_left hne
    refine Tame.straight ((Built.modi hb hr h1 hvs hmod).straight ha ht hm hq' ?_)
    rw [e]
    refine ⟨x, rest ++ [r], by rw [e2]; rfl, h2, fun v hv => ?_⟩
    rcases List.mem_append.mp hv with hv | hv
    · exact h3 v hv
    · rw [List.mem_singleton.mp hv]; exact hvs

/-- **C28** for the units of any string: a unit that is a single code point, or whose code points are
orderly. -/
theorem C28_string_partial (ha : Agrees C adv) (ht : SaneTable C) {t : Bytes} {m : Moji}
    (hm : m ∈ stringToMoji C t) (hp : m.printPanics = false)
    (h : (∃ r, runesOf m.write = [r]) ∨ Orderly C (runesOf m.write)) :
    Moves adv (m.print C) (m.width C) := by
  have hb : Built C m.norm := segs_built C t _ (List.mem_map.mpr ⟨m, hm, rfl⟩)
  apply C28_partial ha ht
  rw [← Moji.norm_write] at h
  refine hb.tame ha ht rfl ?_ hp
  rcases h with ⟨r, h⟩ | h
  · rw [h]
    refine ⟨by simp, ?_, by simp, ?_, ?_⟩
    · intro q rest e
      obtain ⟨-, rfl⟩ := List.cons.inj e
      simp
    · intro x y e
      have := congrArg List.length e
      simp at this
      omega
    · intro x q y e _
      cases x with
      | nil => exact .inl rfl
      | cons a x => have := congrArg List.length e; simp at this
  · exact h

section
open Example

/-- How far the terminal of the examples moves. -/
def Example.columns (r : Rune) : Int :=
  if regional r then 2 else if r = 0x200D then 1 else if r < 0x1100 then 1 else 2

/-- The full terminal with a sane table. -/
def Example.sane : Cfg :=
  { full with width := fun r => if (0x7F ≤ r ∧ r ≤ 0x9F) ∨ r = 0x200D then 0 else if r < 0x1100 then 1 else 2 }

theorem Example.columns_agree : Agrees sane columns where
  ascii := by
    intro r h1 h2
    have : regional r = false := by unfold regional; simp; omega
    simp only [columns, this, Bool.false_eq_true, if_false]
    rw [if_neg (by omega), if_pos (by omega)]
  table := by
    intro r h1 h2 h3
    have : ¬((0x7F ≤ r ∧ r ≤ 0x9F) ∨ r = 0x200D) := by
      simp only [isControl, Bool.or_eq_false_iff, Bool.and_eq_false_iff, decide_eq_false_iff_not] at h1
      omega
    simp only [columns, sane, h2, Bool.false_eq_true, if_false]
    rw [if_neg h3, if_neg this]
  region := by intro r h; simp [columns, h]
  joiner := by decide
  joint := by intro a b; rfl

theorem Example.sane_table : SaneTable sane where
  ctrl := by intro r h1 h2; simp only [sane]; rw [if_pos (by omega)]
  joiner := by decide
  nonneg := by intro r; simp only [sane]; split <;> (try split) <;> decide

/-- A skin tone behind a control character: the control character itself is sent. -/
theorem C28_refuted : ∃ m, stringToMoji sane (b "\x01🏻") = [m] ∧ m.printPanics = false ∧
    ¬ Moves columns (m.print sane) (m.width sane) := by
  refine ⟨.modi (.ctrl 1) (.raw 0x1F3FB), by decide +kernel, rfl, ?_⟩
  intro h
  obtain ⟨s, e⟩ := h 0 0 (by decide)
  have : receiveAll columns { col := 0, saved := 0 }
      (runesOf ((Moji.modi (.ctrl 1) (.raw 0x1F3FB)).print sane)) = none := by decide +kernel
  rw [this] at e
  cases e

/-- And one behind an escaped code point (a lone joiner): sent as it is, announced as `<200D>`. -/
theorem C28_refuted_width : ∃ m, stringToMoji sane (b "‍🏻") = [m] ∧ m.printPanics = false ∧
    ¬ Moves columns (m.print sane) (m.width sane) := by
  refine ⟨.modi (.esc 0x200D) (.raw 0x1F3FB), by decide +kernel, rfl, ?_⟩
  intro h
  obtain ⟨s, e⟩ := h 0 0 (by decide)
  have : receiveAll columns { col := 0, saved := 0 }
      (runesOf ((Moji.modi (.esc 0x200D) (.raw 0x1F3FB)).print sane)) = some { col := 3, saved := 0 } := by
    decide +kernel
  rw [this] at e
  injection e with e
  injection e with e
  revert e
  decide +kernel

/-- A waving flag joined with a rainbow and a variation selector. -/
example : stringToMoji sane (b "🏳️‍🌈") =
    [.zwj (.vari (.flag 0x1F3F3) (.raw 0xFE0F)) (.raw 0x1F308)] := by decide +kernel

/-- A code point list is orderly if it has no control characters, regional indicators and modifiers, and no two
joiners in a row. -/
theorem Spec.Orderly.plain {C : Cfg} {rs : List Rune}
    (h : ∀ r ∈ rs, isControl r = false ∧ regional r = false ∧ isEmojiModifier C r = false)
    (hj : ∀ x y, rs ≠ x ++ [0x200D, 0x200D] ++ y) : Orderly C rs := by
  refine ⟨fun r hr => (h r (List.mem_of_mem_tail hr)).1, ?_, ?_, hj, ?_⟩
  · intro r rest e hc
    have := (h r (by rw [e]; simp)).1
    rw [hc] at this
    cases this
  · intro r hr hg
    have := (h r (List.mem_of_mem_tail hr)).2.1
    rw [hg] at this
    cases this
  · intro x r y e hm
    have := (h r (by rw [e]; simp)).2.2
    rw [hm] at this
    cases this

/-- No two joiners in a row, to be computed. -/
theorem no_joiners {rs : List Rune} (h : (rs.zip rs.tail).all (fun p => !(p.1 == 0x200D && p.2 == 0x200D)) = true) :
    ∀ x y, rs ≠ x ++ [0x200D, 0x200D] ++ y := by
  rintro x y rfl
  have hm : ((0x200D, 0x200D) : Rune × Rune) ∈
      (x ++ [0x200D, 0x200D] ++ y).zip (x ++ [0x200D, 0x200D] ++ y).tail := by
    induction x with
    | nil => simp
    | cons a x ih =>
      cases x with
      | nil => simp
      | cons c x =>
        simp only [List.cons_append, List.tail_cons, List.zip_cons_cons] at ih ⊢
        exact List.mem_cons_of_mem _ (by
          refine ih ?_
          simp only [List.cons_append, List.tail_cons, List.zip_cons_cons, List.all_cons, Bool.and_eq_true] at h ⊢
          exact h.2)
  have := List.all_eq_true.mp h _ hm
  cases this

example : Orderly sane (runesOf (b "🏳️‍🌈")) :=
  Spec.Orderly.plain (by decide +kernel) (no_joiners (by decide +kernel))

/-- A woman with a skin tone and a rocket: a modifier and a joiner. -/
example : stringToMoji sane (b "👩🏽‍🚀") = [.zwj (.modi (.raw 0x1F469) (.raw 0x1F3FD)) (.raw 0x1F680)] ∧
    Orderly sane (runesOf (b "👩🏽‍🚀")) := by
  refine ⟨by decide +kernel, ?_⟩
  have e : runesOf (b "👩🏽‍🚀") = [0x1F469, 0x1F3FD, 0x200D, 0x1F680] := by decide +kernel
  rw [e]
  refine ⟨by decide, ?_, by decide, no_joiners (by decide), ?_⟩
  · intro r rest e hc
    obtain ⟨rfl, -⟩ := List.cons.inj e
    exact absurd hc (by decide)
  · intro x r y e hm
    rcases x with _ | ⟨x0, _ | ⟨x1, x⟩⟩
    · exact .inl rfl
    · right
      simp only [List.cons_append, List.nil_append, List.cons.injEq] at e
      obtain ⟨rfl, -⟩ := e
      exact ⟨_, [], rfl, .inl (by decide), by simp⟩
    · exfalso
      have hr : r ∈ [(0x200D : Rune), 0x1F680] := by
        simp only [List.cons_append, List.cons.injEq] at e
        rw [e.2.2]; simp
      simp at hr
      rcases hr with rfl | rfl <;> exact absurd hm (by decide)

/-- A joined control character is sent itself. -/
theorem C28_refuted_joined : ∃ m, stringToMoji sane (b "a\u200d\x01") = [m] ∧ m.printPanics = false ∧
    ¬ Moves columns (m.print sane) (m.width sane) := by
  refine ⟨.zwj (.raw 0x61) (.raw 1), by decide +kernel, rfl, ?_⟩
  intro h
  obtain ⟨s, e⟩ := h 0 0 (by decide)
  have : receiveAll columns { col := 0, saved := 0 }
      (runesOf ((Moji.zwj (.raw 0x61) (.raw 1)).print sane)) = none := by decide +kernel
  rw [this] at e
  cases e

/-- The second of two joiners counts nothing. -/
theorem C28_refuted_joiners : ∃ m, stringToMoji sane (b "a\u200d\u200d") = [m] ∧ m.printPanics = false ∧
    m.width sane = 2 ∧ ¬ Moves columns (m.print sane) (m.width sane) := by
  refine ⟨.zwj (.raw 0x61) (.raw 0x200D), by decide +kernel, rfl, by decide, ?_⟩
  intro h
  obtain ⟨s, e⟩ := h 0 0 (by decide)
  have : receiveAll columns { col := 0, saved := 0 }
      (runesOf ((Moji.zwj (.raw 0x61) (.raw 0x200D)).print sane)) = some { col := 3, saved := 0 } := by
    decide +kernel
  rw [this] at e
  injection e with e
  injection e with e
  revert e
  decide +kernel

/-- Behind a unit with a variation selector, whose width the table gives as 1 more than announced or less: a table in
which variation selectors have no width. -/
def Example.marks : Cfg :=
  { sane with width := fun r => if r = 0xFE0F then 0 else sane.width r }

def Example.marksColumns (r : Rune) : Int := if r = 0xFE0F then 0 else columns r

theorem Example.marks_agree : Agrees marks marksColumns where
  ascii := by
    intro r h1 h2
    show (if r = 0xFE0F then (0 : Int) else columns r) = 1
    rw [if_neg (by omega)]
    exact columns_agree.ascii r h1 h2
  table := by
    intro r h1 h2 h3
    show (if r = 0xFE0F then (0 : Int) else columns r) = if r = 0xFE0F then 0 else sane.width r
    split
    · rfl
    · exact columns_agree.table r h1 h2 h3
  region := by
    intro r h
    show (if r = 0xFE0F then (0 : Int) else columns r) = 2
    rw [if_neg (by rintro rfl; revert h; decide)]
    exact columns_agree.region r h
  joiner := by decide
  joint := by intro a b; rfl

/-- A modifier behind a variation selector: the terminal goes one column less than announced. -/
theorem C28_refuted_marked : ∃ m, stringToMoji marks (b "☝\ufe0f🏻") = [m] ∧ m.printPanics = false ∧
    ¬ Moves marksColumns (m.print marks) (m.width marks) := by
  refine ⟨.modi (.vari (.raw 0x261D) (.raw 0xFE0F)) (.raw 0x1F3FB), by decide +kernel, rfl, ?_⟩
  intro h
  obtain ⟨s, e⟩ := h 0 0 (by decide)
  have : receiveAll marksColumns { col := 0, saved := 0 }
      (runesOf ((Moji.modi (.vari (.raw 0x261D) (.raw 0xFE0F)) (.raw 0x1F3FB)).print marks)) =
      some { col := 4, saved := 0 } := by decide +kernel
  rw [this] at e
  injection e with e
  injection e with e
  revert e
  decide +kernel

/-- A joined regional indicator counts as in the table: if that is not two columns, the claim is false. -/
theorem C28_refuted_region {C : Cfg} {adv : Rune → Int} (ha : Agrees C adv) {r : Rune} (hs : isScalar r = true)
    (hr : regional r = true) (hw : C.width r ≠ 2) (h1 : C.width 0x61 = 1) :
    ¬ Moves adv ((Moji.zwj (.raw 0x61) (.raw r)).print C) ((Moji.zwj (.raw 0x61) (.raw r)).width C) := by
  intro h
  obtain ⟨s, e⟩ := h 0 0 (by decide)
  have hj := ha.joiner
  have hp : Printed ((Moji.zwj (.raw 0x61) (.raw r)).print C) ([0x61] ++ [0x200D] ++ [r]) :=
    ((Printed.rune (by decide)).append (Printed.rune (by decide))).append (Printed.rune hs)
  have m1 : MovesR adv [(0x61 : Rune)] (adv 0x61) := MovesR.one (by decide)
  have m2 : MovesR adv [(0x200D : Rune)] (adv 0x200D) := MovesR.one (by decide)
  have m3 : MovesR adv [r] (adv r) := MovesR.one (regional_control hr)
  have h61 := ha.ascii 0x61 (by decide) (by decide)
  have := ((m1.append (by omega) m2).append (by omega) m3) 0 0 (by decide)
  rw [hp.runes] at e
  obtain ⟨s', e'⟩ := this
  rw [e'] at e
  injection e with e
  injection e with e
  have hx : (Moji.zwj (.raw 0x61) (.raw r)).width C = C.zwjWidth (C.width 0x61) (C.width r) := rfl
  rw [hx, ha.joint, ha.region r hr, h61, h1] at e
  omega
end

end Readline
