import Verif.Spec.LastWord
import Verif.Proof.Strings
/-!
# `split` finds the last word
-/
namespace Readline
open Spec

instance (c t : Bytes) : Decidable (Occurs c t) := decidable_of_iff _ occurs_iff.symm

instance (c : Bytes) : Decidable (Separator c) := inferInstanceAs (Decidable (Occurs c _))

theorem splitLoop_cons (quotes del : Bytes) (c : Bytes) (cs : List Bytes) (i : Nat) (mode : Option SplitWord)
    (fields : List Bytes) (last : Nat) : splitLoop quotes del (c :: cs) i mode fields last =
    if mode.isNone && decide (Occurs c splitSpaces) then
      splitLoop quotes del cs (i + 1) none fields last
    else
      let w := mode.getD { start := i, text := [], bits := 0 }
      match position c quotes with
      | some j =>
        splitLoop quotes del cs (i + 1)
          (some { w with text := w.text ++ c, bits := Nat.xor w.bits (2 ^ j % 2 ^ 64) }) fields last
      | none =>
        if w.bits = 0 && decide (Occurs c splitSpaces) then
          splitLoop quotes del cs (i + 1) none (fields ++ [without w.text quotes]) w.start
        else if w.bits = 0 && decide (Occurs c del) then
          splitLoop quotes del cs (i + 1) none (fields ++ [without w.text quotes, c]) i
        else
          splitLoop quotes del cs (i + 1) (some { w with text := w.text ++ c }) fields last := by
  rw [splitLoop]
  have h : ∀ t, containsBytes c t = decide (Occurs c t) := fun t => by rw [Bool.eq_iff_iff, decide_eq_true_eq, occurs_iff]
  simp only [position_eq, without_eq, h]
  rfl

theorem splitLoop_last (quotes del : Bytes) (i : Nat) (w : SplitWord) (fields : List Bytes) (last : Nat) :
    splitLoop quotes del [] i (some w) fields last = (fields ++ [without w.text quotes], w.start) := by
  rw [splitLoop, without_eq]

theorem indexOf_lt {c : Bytes} {q : Bytes} {i j : Nat} (h : indexOf c q i = some j) :
    j ≤ i + q.length ∧ (c ≠ [] → j < i + q.length) := by
  induction q generalizing i with
  | nil =>
    rw [indexOf] at h
    split at h
    · cases h; rename_i hc; exact ⟨by simp, fun hn => absurd hc hn⟩
    · cases h
  | cons b q ih =>
    rw [indexOf] at h
    split at h
    · cases h; simp
    · have := ih h
      simp only [List.length_cons]
      exact ⟨by omega, fun hn => by have := this.2 hn; omega⟩

/-- The bits of the word scanned so far: bit `j` says that the mark at `j` occurs an odd number
of times. -/
def BitsOf (quotes : Bytes) (us : List Bytes) (bits : Nat) : Prop :=
  ∀ j, bits.testBit j = (decide (j < 64) && decide (us.countP (fun c => position c quotes == some j) % 2 = 1))

theorem BitsOf.nil (quotes : Bytes) : BitsOf quotes [] 0 := by
  intro j; simp

theorem BitsOf.quote {quotes : Bytes} {us : List Bytes} {bits : Nat} (h : BitsOf quotes us bits)
    {c : Bytes} {j : Nat} (hc : position c quotes = some j) :
    BitsOf quotes (us ++ [c]) (Nat.xor bits (2 ^ j % 2 ^ 64)) := by
  intro i
  show (bits ^^^ (2 ^ j % 2 ^ 64)).testBit i = _
  rw [Nat.testBit_xor, Nat.testBit_mod_two_pow, Nat.testBit_two_pow, h i, List.countP_append]
  simp only [List.countP_cons, List.countP_nil, hc]
  by_cases hi : i < 64
  · by_cases hij : j = i
    · subst hij
      simp [hi]
      rcases Nat.mod_two_eq_zero_or_one (List.countP (fun c => position c quotes == some j) us) with e | e
      · have : (List.countP (fun c => position c quotes == some j) us + 1) % 2 = 1 := by omega
        simp [e, this]
      · have : (List.countP (fun c => position c quotes == some j) us + 1) % 2 = 0 := by omega
        simp [e, this]
    · have : (some j == some i) = false := by simp [hij]
      simp [hi, hij]
  · simp [hi]

theorem BitsOf.other {quotes : Bytes} {us : List Bytes} {bits : Nat} (h : BitsOf quotes us bits)
    {c : Bytes} (hc : position c quotes = none) : BitsOf quotes (us ++ [c]) bits := by
  intro i
  rw [h i, List.countP_append]
  simp [hc]

theorem BitsOf.open_iff {quotes : Bytes} {us : List Bytes} {bits : Nat} (h : BitsOf quotes us bits) :
    bits ≠ 0 ↔ OpenQuote quotes us := by
  constructor
  · intro hb
    obtain ⟨j, hj⟩ := Nat.exists_testBit_of_ne_zero hb
    rw [h j] at hj
    simp at hj
    exact ⟨j, hj.1, hj.2⟩
  · rintro ⟨j, h1, h2⟩ rfl
    have := h j
    rw [Nat.zero_testBit, h2] at this
    simp [h1] at this

/-- A word may be continued by a unit that does not end it. -/
theorem Spec.IsWord.snoc {quotes del : Bytes} {w : List Bytes} {c : Bytes} {bits : Nat}
    (h : IsWord quotes del w) (hb : BitsOf quotes w bits)
    (hc : position c quotes = none → Separator c ∨ Occurs c del → bits ≠ 0) :
    IsWord quotes del (w ++ [c]) := by
  refine ⟨by simp, ?_, ?_⟩
  · intro d hd
    apply h.head d
    cases w with
    | nil => exact absurd rfl h.ne
    | cons x w => simpa using hd
  · intro a d r e hq hd
    rcases List.eq_nil_or_concat r with rfl | ⟨r', x, rfl⟩
    · obtain ⟨rfl, e2⟩ := List.append_inj' e rfl
      simp at e2
      subst e2
      exact hb.open_iff.mp (hc hq hd)
    · rw [List.concat_eq_append, ← List.cons_append, ← List.append_assoc] at e
      obtain ⟨rfl, -⟩ := List.append_inj' e rfl
      exact h.quoted a d r' rfl hq hd

/-- A word of one unit. -/
theorem Spec.IsWord.single {quotes del : Bytes} {c : Bytes} (h1 : ¬ Separator c)
    (h2 : position c quotes = none → ¬ Occurs c del) : IsWord quotes del [c] := by
  refine ⟨by simp, by intro d hd; simp at hd; subst hd; exact h1, ?_⟩
  intro a d r e hq hd
  rcases List.append_eq_singleton_iff.mp e.symm with ⟨rfl, e⟩ | ⟨-, e⟩
  · simp at e
    obtain ⟨rfl, -⟩ := e
    rcases hd with hd | hd
    · exact absurd hd h1
    · exact absurd hd (h2 hq)
  · simp at e

theorem startOfLast_snoc (ws : List (Nat × Bytes)) (n : Nat) (t : Bytes) : startOfLast (ws ++ [(n, t)]) = n := by
  simp [startOfLast]

theorem startOfLast_snoc2 (ws : List (Nat × Bytes)) (p : Nat × Bytes) (n : Nat) (t : Bytes) :
    startOfLast (ws ++ [p, (n, t)]) = n := by
  simp [startOfLast]

/-- The word being scanned. -/
structure Scan (quotes del : Bytes) (l : List Bytes) (w : SplitWord) (us : List Bytes) : Prop where
  start : w.start = l.length
  text : w.text = us.flatten
  bits : BitsOf quotes us w.bits
  word : IsWord quotes del us

/-- `split` finds the words. -/
theorem splitLoop_words (quotes del : Bytes) (cs : List Bytes) :
    (∀ l ws, Cut quotes del l ws → ∃ ws', Words quotes del (l ++ cs) ws' ∧
      splitLoop quotes del cs l.length none (ws.map Prod.snd) (startOfLast ws) = (ws'.map Prod.snd, startOfLast ws')) ∧
    (∀ l ws w us, Cut quotes del l ws → Scan quotes del l w us → ∃ ws', Words quotes del (l ++ us ++ cs) ws' ∧
      splitLoop quotes del cs (l ++ us).length (some w) (ws.map Prod.snd) (startOfLast ws) =
        (ws'.map Prod.snd, startOfLast ws')) := by
  induction cs with
  | nil =>
    constructor
    · intro l ws h
      exact ⟨ws, by rw [List.append_nil]; exact .cut h, rfl⟩
    · intro l ws w us h hs
      refine ⟨_, by rw [List.append_nil]; exact .last h hs.word, ?_⟩
      rw [splitLoop_last, List.map_append, startOfLast_snoc, hs.start, hs.text]
      rfl
  | cons c cs ih =>
    -- a unit read within a word (`us` may still be empty)
    have go : ∀ (l : List Bytes) (ws : List (Nat × Bytes)) (w : SplitWord) (us : List Bytes) (mode : Option SplitWord),
        Cut quotes del l ws →
        mode.getD { start := (l ++ us).length, text := [], bits := 0 } = w →
        (mode.isNone && decide (Occurs c splitSpaces)) = false →
        w.start = l.length → w.text = us.flatten → BitsOf quotes us w.bits →
        (us = [] ∧ ¬ Separator c ∨ IsWord quotes del us) →
        ∃ ws', Words quotes del (l ++ us ++ c :: cs) ws' ∧
          splitLoop quotes del (c :: cs) (l ++ us).length mode (ws.map Prod.snd) (startOfLast ws) =
            (ws'.map Prod.snd, startOfLast ws') := by
      intro l ws w us mode hcut hmode hnb hstart htext hbits hword
      rw [splitLoop_cons, hnb, hmode]
      rw [if_neg (by decide)]
      dsimp only
      have hcont : (position c quotes = none → Separator c ∨ Occurs c del → w.bits ≠ 0) →
          IsWord quotes del (us ++ [c]) := by
        intro h
        rcases hword with ⟨rfl, hb⟩ | hw
        · refine IsWord.single hb (fun hq => ?_)
          intro hd
          obtain ⟨j, -, hj⟩ := hbits.open_iff.mp (h hq (Or.inr hd))
          simp at hj
        · exact hw.snoc hbits h
      -- the word goes on
      have on : ∀ w' : SplitWord, w'.start = w.start → w'.text = w.text ++ c → BitsOf quotes (us ++ [c]) w'.bits →
          IsWord quotes del (us ++ [c]) → ∃ ws', Words quotes del (l ++ us ++ c :: cs) ws' ∧
            splitLoop quotes del cs ((l ++ us).length + 1) (some w') (ws.map Prod.snd) (startOfLast ws) =
              (ws'.map Prod.snd, startOfLast ws') := by
        intro w' h1 h2 h3 h4
        obtain ⟨ws', hw, he⟩ := ih.2 l ws w' (us ++ [c]) hcut ⟨by rw [h1, hstart], by rw [h2, htext]; simp, h3, h4⟩
        refine ⟨ws', by simpa using hw, ?_⟩
        rw [← he]
        congr 1
        simp
        omega
      have hclosed : w.bits = 0 → ¬ OpenQuote quotes us := fun h0 ho => hbits.open_iff.mpr ho h0
      cases hq : position c quotes with
      | some j =>
        dsimp only
        exact on _ rfl rfl (hbits.quote hq) (hcont (fun h => by rw [h] at hq; cases hq))
      | none =>
        dsimp only
        split
        · -- a blank ends the word
          rename_i hcond
          simp only [Bool.and_eq_true, decide_eq_true_eq] at hcond
          obtain ⟨hb0, hbl⟩ := hcond
          have hw : IsWord quotes del us := by
            rcases hword with ⟨-, hn⟩ | hw
            · exact absurd hbl hn
            · exact hw
          obtain ⟨ws', h1, h2⟩ := ih.1 _ _ (hcut.word hw (hclosed hb0) hbl hq)
          refine ⟨ws', by simpa using h1, ?_⟩
          rw [← h2, startOfLast_snoc, hstart, htext, List.map_append]
          congr 1
          simp
          omega
        · rename_i h1
          have hns : w.bits = 0 → ¬ Separator c := fun h0 hs => h1 (by
            unfold Separator at hs
            simp [h0, splitSpaces, hs])
          split
          · rename_i hcond
            simp only [Bool.and_eq_true, decide_eq_true_eq] at hcond
            obtain ⟨hb0, hdl⟩ := hcond
            have hw : us = [] ∨ IsWord quotes del us := hword.imp And.left id
            obtain ⟨ws', h1, h2⟩ := ih.1 _ _ (hcut.delim hw (hclosed hb0) (hns hb0) ⟨hq, hdl⟩)
            refine ⟨ws', by simpa using h1, ?_⟩
            rw [← h2, startOfLast_snoc2, htext, List.map_append]
            simp [Nat.add_assoc]
          · rename_i h2
            refine on _ rfl rfl (hbits.other hq) (hcont ?_)
            intro _ hor h0
            rcases hor with hor | hor
            · exact hns h0 hor
            · exact h2 (by simp [h0, hor])
    constructor
    · intro l ws hcut
      by_cases hb : Occurs c splitSpaces
      · rw [splitLoop_cons, if_pos (by simp [hb])]
        obtain ⟨ws', h1, h2⟩ := ih.1 _ _ (hcut.blank hb)
        refine ⟨ws', by simpa using h1, ?_⟩
        rw [← h2]
        simp
      · have := go l ws { start := l.length, text := [], bits := 0 } [] none hcut (by simp) (by simp [hb]) rfl rfl (.nil _)
          (Or.inl ⟨rfl, hb⟩)
        simpa using this
    · intro l ws w us hcut h
      exact go l ws w us (some w) hcut rfl (by simp) h.start h.text h.bits (Or.inr h.word)

theorem words_exist (quotes del : Bytes) (l : List Bytes) : ∃ ws, Words quotes del l ws ∧
    splitLoop quotes del l 0 none [] 0 = (ws.map Prod.snd, startOfLast ws) := by
  have := (splitLoop_words quotes del l).1 [] [] .start
  simpa [startOfLast] using this

/-! ## There is only one way to cut the units into words -/

theorem splitLoop_mode (quotes del : Bytes) {c : Bytes} (cs : List Bytes) (i : Nat) (fields : List Bytes) (last : Nat)
    (hc : ¬ Separator c) : splitLoop quotes del (c :: cs) i none fields last =
      splitLoop quotes del (c :: cs) i (some { start := i, text := [], bits := 0 }) fields last := by
  have hb : ¬ Occurs c splitSpaces := hc
  rw [splitLoop_cons, splitLoop_cons]
  simp [hb]

theorem splitLoop_some (quotes del : Bytes) (c : Bytes) (cs : List Bytes) (i : Nat) (w : SplitWord) (fields : List Bytes)
    (last : Nat) : splitLoop quotes del (c :: cs) i (some w) fields last =
      match position c quotes with
      | some j =>
        splitLoop quotes del cs (i + 1)
          (some { w with text := w.text ++ c, bits := Nat.xor w.bits (2 ^ j % 2 ^ 64) }) fields last
      | none =>
        if w.bits = 0 && decide (Occurs c splitSpaces) then
          splitLoop quotes del cs (i + 1) none (fields ++ [without w.text quotes]) w.start
        else if w.bits = 0 && decide (Occurs c del) then
          splitLoop quotes del cs (i + 1) none (fields ++ [without w.text quotes, c]) i
        else
          splitLoop quotes del cs (i + 1) (some { w with text := w.text ++ c }) fields last := by
  rw [splitLoop_cons]
  rfl

/-- Within a word `split` goes on. -/
theorem splitLoop_within (quotes del : Bytes) (cs : List Bytes) (us : List Bytes) : ∀ (done : List Bytes) (w : SplitWord)
    (i : Nat) (fields : List Bytes) (last : Nat), BitsOf quotes done w.bits →
    (∀ a c r, done ++ us = a ++ c :: r → position c quotes = none →
      Separator c ∨ Occurs c del → OpenQuote quotes a) →
    ∃ bits, BitsOf quotes (done ++ us) bits ∧ splitLoop quotes del (us ++ cs) i (some w) fields last =
      splitLoop quotes del cs (i + us.length) (some { start := w.start, text := w.text ++ us.flatten, bits := bits }) fields last := by
  induction us with
  | nil =>
    intro done w i fields last hb _
    exact ⟨w.bits, by simpa using hb, by simp⟩
  | cons c us ih =>
    intro done w i fields last hb hw
    have hdone : done ++ c :: us = (done ++ [c]) ++ us := by simp
    have next : ∀ w' : SplitWord, w'.start = w.start → w'.text = w.text ++ c → BitsOf quotes (done ++ [c]) w'.bits →
        splitLoop quotes del (c :: us ++ cs) i (some w) fields last =
          splitLoop quotes del (us ++ cs) (i + 1) (some w') fields last →
        ∃ bits, BitsOf quotes (done ++ c :: us) bits ∧ splitLoop quotes del (c :: us ++ cs) i (some w) fields last =
          splitLoop quotes del cs (i + (c :: us).length)
            (some { start := w.start, text := w.text ++ (c :: us).flatten, bits := bits }) fields last := by
      intro w' h1 h2 h3 h4
      obtain ⟨bits, h5, h6⟩ := ih (done ++ [c]) w' (i + 1) fields last h3 (by rw [← hdone]; exact hw)
      refine ⟨bits, by rw [hdone]; exact h5, ?_⟩
      rw [h4, h6, h1, h2]
      simp [Nat.add_assoc, Nat.add_comm 1]
    have e := splitLoop_some quotes del c (us ++ cs) i w fields last
    rw [← List.cons_append] at e
    cases hq : position c quotes with
    | some j =>
      rw [hq] at e
      exact next { w with text := w.text ++ c, bits := Nat.xor w.bits (2 ^ j % 2 ^ 64) } rfl rfl (hb.quote hq) e
    | none =>
      rw [hq] at e
      have h0 : Separator c ∨ Occurs c del → w.bits ≠ 0 := fun h =>
        hb.open_iff.mpr (hw done c us rfl hq h)
      dsimp only at e
      rw [if_neg, if_neg] at e
      · exact next { w with text := w.text ++ c } rfl rfl (hb.other hq) e
      · intro h
        rw [Bool.and_eq_true, decide_eq_true_eq] at h
        exact h0 (Or.inr (of_decide_eq_true h.2)) h.1
      · intro h
        rw [Bool.and_eq_true, decide_eq_true_eq] at h
        have f := of_decide_eq_true h.2
        exact h0 (Or.inl f) h.1

/-- `split` reads a word. -/
theorem splitLoop_word (quotes del : Bytes) {us : List Bytes} (hw : IsWord quotes del us) (cs : List Bytes) (i : Nat)
    (fields : List Bytes) (last : Nat) : ∃ bits, BitsOf quotes us bits ∧
    splitLoop quotes del (us ++ cs) i none fields last =
      splitLoop quotes del cs (i + us.length) (some { start := i, text := us.flatten, bits := bits }) fields last := by
  cases us with
  | nil => exact absurd rfl hw.ne
  | cons c us =>
    obtain ⟨bits, h1, h2⟩ := splitLoop_within quotes del cs (c :: us) [] { start := i, text := [], bits := 0 } i fields last
      (.nil _) hw.quoted
    refine ⟨bits, h1, ?_⟩
    rw [List.cons_append, splitLoop_mode quotes del _ _ _ _ (hw.head c rfl), ← List.cons_append, h2]
    simp

theorem Spec.Cut.run {quotes del : Bytes} {l : List Bytes} {ws : List (Nat × Bytes)} (h : Cut quotes del l ws) :
    ∀ cs, splitLoop quotes del (l ++ cs) 0 none [] 0 =
      splitLoop quotes del cs l.length none (ws.map Prod.snd) (startOfLast ws) := by
  induction h with
  | start => intro cs; rfl
  | @blank l ws c h hc ih =>
    intro cs
    rw [List.append_assoc, ih]
    have hc' : Occurs c splitSpaces := hc
    rw [List.singleton_append, splitLoop_cons, if_pos (by simp [hc'])]
    simp
  | @word l ws w c h hw ho hc hq ih =>
    intro cs
    rw [List.append_assoc, List.append_assoc, ih]
    obtain ⟨bits, h1, h2⟩ := splitLoop_word quotes del hw ([c] ++ cs) l.length (ws.map Prod.snd) (startOfLast ws)
    have h0 : bits = 0 := Classical.byContradiction fun h => ho (h1.open_iff.mp h)
    have hc' : Occurs c splitSpaces := hc
    rw [h2, List.singleton_append, splitLoop_cons]
    simp [hq, h0, hc', startOfLast_snoc, Nat.add_assoc]
  | @delim l ws w c h hw ho hns hd ih =>
    intro cs
    rw [List.append_assoc, List.append_assoc, ih]
    have hns' : ¬ Occurs c splitSpaces := hns
    rcases hw with rfl | hw
    · rw [List.nil_append, List.singleton_append, splitLoop_cons]
      simp [hd.1, hd.2, hns', startOfLast_snoc2]
    · obtain ⟨bits, h1, h2⟩ := splitLoop_word quotes del hw ([c] ++ cs) l.length (ws.map Prod.snd) (startOfLast ws)
      have h0 : bits = 0 := Classical.byContradiction fun h => ho (h1.open_iff.mp h)
      rw [h2, List.singleton_append, splitLoop_cons]
      simp [hd.1, hd.2, h0, hns', startOfLast_snoc2, Nat.add_assoc]

/-- `split` finds nothing but the words. -/
theorem Spec.Words.run {quotes del : Bytes} {l : List Bytes} {ws : List (Nat × Bytes)} (h : Words quotes del l ws) :
    splitLoop quotes del l 0 none [] 0 = (ws.map Prod.snd, startOfLast ws) := by
  cases h with
  | cut h =>
    have := h.run []
    rw [List.append_nil] at this
    rw [this, splitLoop]
  | @last l ws w h hw =>
    rw [h.run]
    obtain ⟨bits, -, h2⟩ := splitLoop_word quotes del hw [] l.length (ws.map Prod.snd) (startOfLast ws)
    rw [List.append_nil] at h2
    rw [h2, splitLoop_last, startOfLast_snoc]
    simp

end Readline
