import Verif.Proof.Mild
import Verif.Proof.InkCall
import Verif.Spec.Seen
/-!
# Everything an ordinary session prints

Every piece of output of an ordinary session satisfies a given predicate, if the predicate holds for
ordinary characters, the prompt and the few control sequences.  The structure of the proofs is that
of `Proof/Mild.lean` and `Proof/InkCall.lean`.
-/
set_option linter.unusedSectionVars false

namespace Readline
open Spec

theorem ascii_over {P : Nat → Prop} {b : Bytes} (h : ∀ x ∈ b, x < 0x80 ∧ P x.toNat) : ValidUtf8 b ∧ Over P b := by
  have hs : ∀ r ∈ b.map UInt8.toNat, isScalar r = true := by
    intro r hr
    obtain ⟨x, hx, rfl⟩ := List.mem_map.mp hr
    have := (h x hx).1
    have : x.toNat < 0x80 := this
    unfold isScalar
    simp
    omega
  have e : b = encodeRunes (b.map UInt8.toNat) := by
    clear hs
    induction b with
    | nil => rfl
    | cons x b ih =>
      have hx : x.toNat < 0x80 := (h x (by simp)).1
      have := ih fun y hy => h y (by simp [hy])
      simp only [encodeRunes, List.map_cons, List.flatMap_cons] at this ⊢
      rw [← this]
      unfold encodeRune
      rw [if_pos hx]
      simp
  refine ⟨by rw [e]; exact validUtf8_encodeRunes hs, ?_⟩
  unfold Over
  rw [e, runesOf_encodeRunes hs]
  intro r hr
  obtain ⟨x, hx, rfl⟩ := List.mem_map.mp hr
  exact (h x hx).2

/-- `Q` holds for everything that may be written behind a prompt of `c` columns. -/
structure Spec.Inks (P : Nat → Prop) (E : Env) (c : Int) (Q : Tok → Prop) : Prop where
  off : Q .cursorOff
  on : Q .cursorOn
  flush : Q .flush
  await : Q .await
  erase : Q .eraseEol
  sgr : ∀ d, Q (.sgr d)
  goto : Q (.gotoCol (c + 1))
  glyph : ∀ r, P r → Q (.glyph (rune2moji E.cfg r 0))
  color1 : Q (.lit E.predictColor.1)
  color2 : Q (.lit E.predictColor.2)
  bell : Q (.lit [7])

/-- `Q` holds for everything that may be written with the prompt `c` columns wide. -/
structure Spec.Emits (P : Nat → Prop) (E : Env) (c : Int) (Q : Tok → Prop) : Prop extends Inks P E c Q where
  prompt : ∀ b, PromptText E b → Q (.lit b)
  lf : Q (.lit [0x0A])
  clear : Q (.lit [0x1B, 0x5B, 0x31, 0x3B, 0x31, 0x48, 0x1B, 0x5B, 0x32, 0x4A])

/-- All output after `o` satisfies `Q`, and all units of the prediction are single characters from `P`. -/
structure Clean (P : Nat → Prop) (E : Env) (o : List Tok) (Q : Tok → Prop) (s : St) : Prop where
  out : ∃ ts, s.out = o ++ ts ∧ ∀ t ∈ ts, Q t
  hint : ∀ m ∈ s.suffixList, ∃ r, P r ∧ m = rune2moji E.cfg r 0

structure Neat (P : Nat → Prop) (E : Env) (c : Int) (o : List Tok) (Q : Tok → Prop) (s : St) : Prop where
  easy : Easy P E c s
  clean : Clean P E o Q s

/-- The units of a text of ordinary characters. -/
theorem mojis_plain {C : Cfg} {P : Nat → Prop} {t : Bytes} (hP : ∀ r, P r → Plain C r) (h : Over P t)
    (hj : C.zwjOk = true → P 0x200C ∨ P 0x200D → P 0x200D ∧ P 0xFFFD) {m : Moji} (hm : m ∈ stringToMoji C t) :
    ∃ r, P r ∧ m = rune2moji C r 0 := by
  have hl : m.norm ∈ segs C t := List.mem_map.mpr ⟨m, hm, rfl⟩
  obtain ⟨r, hr, e⟩ := built_plain (segs_built C t _ hl) hP (segs_over h hj _ hl)
  refine ⟨r, hr, ?_⟩
  rw [← e, single_norm]
  rw [e]
  exact (plain_columns (hP r hr)).1

section
variable {P : Nat → Prop} {E : Env} {c : Int} {o : List Tok} {Q : Tok → Prop} {s : St}

theorem Clean.of {s' : St} (h : Clean P E o Q s) (ho : s'.out = s.out := by rfl) (hs : s'.suffix = s.suffix := by rfl) :
    Clean P E o Q s' := by
  obtain ⟨h1, h2⟩ := h
  exact ⟨ho ▸ h1, by unfold St.suffixList; rw [hs]; exact h2⟩

theorem Clean.emit {s' : St} {t : Tok} (h : Clean P E o Q s) (ht : Q t) (ho : s'.out = s.out ++ [t] := by rfl)
    (hs : s'.suffix = s.suffix := by rfl) : Clean P E o Q s' := by
  obtain ⟨ts, e, hts⟩ := h.out
  refine ⟨⟨ts ++ [t], by rw [ho, e, List.append_assoc], fun x hx => ?_⟩, by unfold St.suffixList; rw [hs]; exact h.hint⟩
  rcases List.mem_append.mp hx with hx | hx
  · exact hts x hx
  · rw [List.mem_singleton.mp hx]; exact ht

theorem Neat.of {s' : St} (h : Neat P E c o Q s) (he : s'.line = s.line ∧ s'.suffix = s.suffix ∧ s'.undoes = s.undoes ∧
    s'.pending = s.pending ∧ s'.modHist = s.modHist ∧ s'.clip = s.clip ∧ s'.topColumn = s.topColumn ∧
    s'.termWidth = s.termWidth := by exact ⟨rfl, rfl, rfl, rfl, rfl, rfl, rfl, rfl⟩) (ho : s'.out = s.out := by rfl) :
    Neat P E c o Q s' := ⟨h.easy.of he, h.clean.of ho he.2.1⟩

theorem Neat.emit {s' : St} {t : Tok} (h : Neat P E c o Q s) (ht : Q t) (he : s'.line = s.line ∧ s'.suffix = s.suffix ∧
    s'.undoes = s.undoes ∧ s'.pending = s.pending ∧ s'.modHist = s.modHist ∧ s'.clip = s.clip ∧
    s'.topColumn = s.topColumn ∧ s'.termWidth = s.termWidth := by exact ⟨rfl, rfl, rfl, rfl, rfl, rfl, rfl, rfl⟩)
    (ho : s'.out = s.out ++ [t] := by rfl) : Neat P E c o Q s' := ⟨h.easy.of he, h.clean.emit ht ho he.2.1⟩

theorem Clean.glyphs {s' : St} {l : List Moji} (hQ : Inks P E c Q) (h : Clean P E o Q s)
    (hl : ∀ m ∈ l, ∃ r, P r ∧ m = rune2moji E.cfg r 0) (ho : s'.out = s.out ++ l.map Tok.glyph)
    (hs : s'.suffix = s.suffix := by rfl) : Clean P E o Q s' := by
  obtain ⟨ts, e, hts⟩ := h.out
  refine ⟨⟨ts ++ l.map Tok.glyph, by rw [ho, e, List.append_assoc], fun x hx => ?_⟩,
    by unfold St.suffixList; rw [hs]; exact h.hint⟩
  rcases List.mem_append.mp hx with hx | hx
  · exact hts x hx
  · obtain ⟨m, hm, rfl⟩ := List.mem_map.mp hx
    obtain ⟨r, hr, rfl⟩ := hl m hm
    exact hQ.glyph r hr

/-- The units a loop prints are among those it is given. -/
theorem suffixLoop_mem {C : Cfg} {vw : Int} (ms : List Moji) (w : Int) {s s' : St}
    (h : suffixLoop C vw ms w s = .ok s') :
    ∃ l : List Moji, s' = { s with out := s.out ++ l.map Tok.glyph } ∧ ∀ m ∈ l, m ∈ ms := by
  induction ms generalizing w s with
  | nil => cases h; exact ⟨[], by simp, fun _ h => h⟩
  | cons m ms ih =>
    rw [suffixLoop] at h
    split at h
    · cases h; exact ⟨[], by simp, fun _ h => by cases h⟩
    · obtain ⟨s1, h1, h⟩ := bind_ok.mp h
      obtain ⟨l, e, hl⟩ := ih _ h
      unfold printMoji at h1
      split at h1 <;> cases h1
      refine ⟨m :: l, by rw [e]; simp [St.emit], fun x hx => ?_⟩
      rcases List.mem_cons.mp hx with rfl | hx
      · simp
      · simp [hl x hx]

theorem putsLoop_toks (cs : List Cell) {c : Color} {s s' : St} {d : Color}
    (h : putsLoop cs c s = .ok (s', d)) :
    ∃ ts : List Tok, s' = { s with out := s.out ++ ts } ∧ ∀ t ∈ ts, (∃ d, t = .sgr d) ∨ ∃ x ∈ cs, t = .glyph x.moji := by
  induction cs generalizing c s with
  | nil => cases h; exact ⟨[], by simp, fun _ h => by cases h⟩
  | cons x cs ih =>
    rw [putsLoop] at h
    obtain ⟨s1, h1, h⟩ := bind_ok.mp h
    obtain ⟨ts, e, ht⟩ := ih h
    unfold printMoji at h1
    split at h1
    · cases h1
    · cases h1
      split at e
      · refine ⟨[.sgr x.color, .glyph x.moji] ++ ts, by rw [e]; simp [St.emit], fun t hx => ?_⟩
        simp only [List.cons_append, List.nil_append, List.mem_cons] at hx
        rcases hx with rfl | rfl | hx
        · exact Or.inl ⟨_, rfl⟩
        · exact Or.inr ⟨x, by simp, rfl⟩
        · rcases ht t hx with h | ⟨y, hy, h⟩
          · exact Or.inl h
          · exact Or.inr ⟨y, by simp [hy], h⟩
      · refine ⟨[.glyph x.moji] ++ ts, by rw [e]; simp [St.emit], fun t hx => ?_⟩
        simp only [List.cons_append, List.nil_append, List.mem_cons] at hx
        rcases hx with rfl | hx
        · exact Or.inr ⟨x, by simp, rfl⟩
        · rcases ht t hx with h | ⟨y, hy, h⟩
          · exact Or.inl h
          · exact Or.inr ⟨y, by simp [hy], h⟩

/-- The two halves of a result. -/
theorem Neat.both {R : Panic → Prop} {x : M St} (h : Wp R x (Easy P E c)) (h' : Wp Any x (Clean P E o Q)) :
    Wp Any x (Neat P E c o Q) := Wp.of_ok fun _ e => ⟨h.ok e, h'.ok e⟩

theorem Neat.both2 {R : Panic → Prop} {x : M (St × α)} (h : Wp R x (fun p => Easy P E c p.1))
    (h' : Wp Any x (fun p => Clean P E o Q p.1)) : Wp Any x (fun p => Neat P E c o Q p.1) :=
  Wp.of_ok fun _ e => ⟨h.ok e, h'.ok e⟩

theorem Clean.cont {x : M St} (h : Wp Any x (Clean P E o Q)) {r : Result} :
    Wp Any (x >>= fun s => Pure.pure (s, r)) (fun p => Clean P E o Q p.1) := Wp.seq h fun _ h1 => h1

theorem Neat.forget {x : M St} (h : Wp Any x (Neat P E c o Q)) : Wp Any x (Clean P E o Q) := h.mono fun _ _ h => h.clean

variable (hS : Ed.Src P E.logic) (hP : ∀ r, P r → Plain E.cfg r) (hc : ∀ n, promptWidth E n = c) (hQ : Inks P E c Q)
include hS hP hc hQ

theorem goto_neat {s' : St} (h : Neat P E c o Q s) (he : s'.line = s.line ∧ s'.suffix = s.suffix ∧
    s'.undoes = s.undoes ∧ s'.pending = s.pending ∧ s'.modHist = s.modHist ∧ s'.clip = s.clip ∧
    s'.topColumn = s.topColumn ∧ s'.termWidth = s.termWidth := by exact ⟨rfl, rfl, rfl, rfl, rfl, rfl, rfl, rfl⟩)
    (ho : s'.out = s.out ++ [.gotoCol (s.topColumn + 1)] := by rfl) : Neat P E c o Q s' :=
  h.emit (by rw [h.easy.top]; exact hQ.goto) he ho

theorem goto_clean {s' : St} (h : Easy P E c s) (h' : Clean P E o Q s) (hs : s'.suffix = s.suffix := by rfl)
    (ho : s'.out = s.out ++ [.gotoCol (s.topColumn + 1)] := by rfl) : Clean P E o Q s' :=
  h'.emit (by rw [h.top]; exact hQ.goto) ho hs

theorem puts_neat (h : Neat P E c o Q s) (lo hi : Int) : Wp Any (puts E s lo hi) (Neat P E c o Q) := by
  refine Neat.both (puts_mild hP h.easy lo hi) (Wp.of_ok fun s' hs' => ?_)
  unfold puts at hs'
  obtain ⟨x, h0, hs'⟩ := bind_ok.mp hs'
  obtain ⟨s1, h1, hs'⟩ := bind_ok.mp hs'
  obtain ⟨cs, h2, hs'⟩ := bind_ok.mp hs'
  obtain ⟨⟨s2, col⟩, h3, hs'⟩ := bind_ok.mp hs'
  have hn1 : Clean P E o Q s1 := by
    unfold refreshColor at h1
    split at h1
    · cases h1
    · cases h1; exact h.clean.of
  have hsame := refreshColor_same h1
  have he1 : Easy P E c s1 := h.easy.same hsame
  have hn2 : Clean P E o Q s2 := by
    obtain ⟨ts, e, ht⟩ := putsLoop_toks cs h3
    rw [e]
    obtain ⟨ts0, e0, hts⟩ := hn1.out
    refine ⟨⟨ts0 ++ ts, by rw [← List.append_assoc, ← e0], fun t hx => ?_⟩, hn1.hint⟩
    rcases List.mem_append.mp hx with hx | hx
    · exact hts t hx
    · rcases ht t hx with ⟨d, rfl⟩ | ⟨y, hy, rfl⟩
      · exact hQ.sgr d
      · obtain ⟨r, hr, e⟩ := he1.unit hP ((slice_here (s := s1)).ok h2 y hy)
        rw [e]
        exact hQ.glyph r hr
  cases pure_ok.mp hs'
  split
  · exact hn2.emit (hQ.sgr _)
  · exact hn2

theorem repaintNoSuffix_neat (h : Neat P E c o Q s) : Wp Any (repaintNoSuffix E s) (Neat P E c o Q) := by
  refine Neat.both (repaintNoSuffix_mild hP h.easy) ?_
  unfold repaintNoSuffix
  refine Wp.seq Wp.any fun p _ => ?_
  obtain ⟨n, w⟩ := p
  dsimp only
  refine Wp.seq (puts_neat hS hP hc hQ (s := gotoHead s) (goto_neat hS hP hc hQ h) _ _) fun s1 h1 => ?_
  have last : ∀ s2, Neat P E c o Q s2 →
      Wp Any (puts E (gotoHead (eraseline s2)) (gotoHead (eraseline s2)).viewStart
        (gotoHead (eraseline s2)).cursor) (Clean P E o Q) := fun s2 h2 =>
    Neat.forget (puts_neat hS hP hc hQ (goto_neat hS hP hc hQ (s := eraseline s2) (h2.emit hQ.erase)) _ _)
  split
  · refine Wp.seq (P := Neat P E c o Q) ?_ last
    refine Wp.of_ok fun s2 h2 => ?_
    obtain ⟨s3, h3, h4⟩ := bind_ok.mp h2
    obtain ⟨l, e, hl⟩ := suffixLoop_mem _ _ h3
    cases pure_ok.mp h4
    have hc1 : Neat P E c o Q (s1.emit (.lit E.predictColor.1)) := h1.emit hQ.color1
    have : Neat P E c o Q s3 := by
      refine ⟨by rw [e]; exact hc1.easy.of, hc1.clean.glyphs hQ (fun m hm => ?_) (by rw [e]) (by rw [e])⟩
      have hm : m ∈ s1.suffixList := by
        have hm : m ∈ (s1.emit (.lit E.predictColor.1)).visibleSuffix E := hl m hm
        unfold St.visibleSuffix at hm
        split at hm
        · cases hm
        · split at hm
          · cases hm
          · exact hm
      exact h1.clean.hint m hm
    exact this.emit hQ.color2
  · exact Wp.seq (P := Neat P E c o Q) h1 last

theorem Neat.predict (h : Neat P E c o Q s) : Neat P E c o Q (updateSuffix E s) := by
  refine ⟨h.easy.predict hS, ?_⟩
  unfold updateSuffix
  split
  · exact h.clean
  · split
    · exact ⟨h.clean.out, fun m hm => by cases hm⟩
    · refine ⟨h.clean.out, fun m hm => mojis_plain hP ?_ hS.joined hm⟩
      have hx : Over P (cell2string s.buf) := h.easy.cut fun x hx => hx
      refine hS.predict _ ?_ hx
      show ValidUtf8 (cell2string s.buf)
      rw [cell2string_eq]
      exact lineText_valid h.easy.texts.built

theorem repaint_neat (h : Neat P E c o Q s) : Wp Any (repaint E s) (Neat P E c o Q) :=
  repaintNoSuffix_neat hS hP hc hQ (Neat.predict hS hP hc hQ h)

theorem repaint_clean (h : Neat P E c o Q s) : Wp Any (repaint E s) (Clean P E o Q) :=
  Neat.forget (repaint_neat hS hP hc hQ h)

theorem insertString_neat (h : Neat P E c o Q s) (pos : Int) {t : Bytes} (ht : Over P t) :
    Wp Any (insertString E s pos t) (fun p => Neat P E c o Q p.1) := by
  refine Neat.both2 (insertString_mild hS hP hc h.easy pos ht) ?_
  unfold insertString insertCells bufInsert
  dsimp only
  split
  · exact h.clean.of
  · exact trivial

theorem deleteCells_neat (h : Neat P E c o Q s) (pos n : Int) :
    Wp Any (deleteCells E s pos n) (fun p => Neat P E c o Q p.1) := by
  refine Neat.both2 (deleteCells_mild hS hP hc h.easy pos n) ?_
  unfold deleteCells
  split
  · exact h.clean
  · refine Wp.seq Wp.any fun _ _ => ?_
    dsimp only
    exact Wp.seq Wp.any fun _ _ => h.clean.of

theorem replaceAndRepaint_neat (h : Neat P E c o Q s) (pos : Int) {t : Bytes} (ht : Over P t) :
    Wp Any (replaceAndRepaint E s pos t) (Neat P E c o Q) := by
  unfold replaceAndRepaint
  refine Wp.seq (deleteCells_neat hS hP hc hQ h _ _) fun p h1 => ?_
  obtain ⟨s1, n⟩ := p
  dsimp only
  refine Wp.seq (insertString_neat hS hP hc hQ h1 _ ht) fun p h2 => ?_
  obtain ⟨s2, ins⟩ := p
  dsimp only
  refine repaint_neat hS hP hc hQ ?_
  rw [joinUndo_eq]
  obtain ⟨⟨t, h3, h4⟩, h5⟩ := h2
  exact ⟨⟨⟨t.built, t.line, t.suffix, Ed.joinUndoes_over t.undoes, t.pending, t.whole, t.modHist, t.clip⟩, h3, h4⟩, h5.of⟩

theorem replaceAndRepaint_clean (h : Neat P E c o Q s) (pos : Int) {t : Bytes} (ht : Over P t) :
    Wp Any (replaceAndRepaint E s pos t) (Clean P E o Q) := Neat.forget (replaceAndRepaint_neat hS hP hc hQ h pos ht)

theorem prompt_neat (hE : Emits P E c Q) (h : Neat P E c o Q s) :
    Neat P E c o Q { (callPromptWriter E s).2 with topColumn := (callPromptWriter E s).1 } := by
  obtain ⟨he, hcl⟩ := h
  have hp := hE.prompt
  unfold PromptText at hp
  have hw := hc s.promptN
  unfold promptWidth at hw
  unfold callPromptWriter
  cases hx : E.prompt with
  | none =>
    rw [hx] at hp hw
    exact ⟨⟨he.texts, hw, he.room⟩, hcl.emit (hp _ (Or.inl rfl))⟩
  | some p =>
    rw [hx] at hp hw
    exact ⟨⟨he.texts, hw, he.room⟩, hcl.emit (hp _ ⟨s.promptN, Or.inl rfl⟩)⟩

theorem repaintAll_clean (hE : Emits P E c Q) (h : Neat P E c o Q s) : Wp Any (repaintAll E s) (Clean P E o Q) := by
  unfold repaintAll
  exact repaint_clean hS hP hc hQ (prompt_neat hS hP hc hQ hE (s := s.emit .flush) (h.emit hQ.flush))

theorem repaintLastLine_clean (hE : Emits P E c Q) (h : Neat P E c o Q s) : Wp Any (repaintLastLine E s) (Clean P E o Q) := by
  have hp := hE.prompt
  unfold PromptText at hp
  have h1 : Neat P E c o Q (s.emit .flush) := h.emit hQ.flush
  unfold repaintLastLine
  dsimp only
  cases hx : E.prompt with
  | none =>
    rw [hx] at hp
    exact repaint_clean hS hP hc hQ (h1.emit (hp _ (Or.inr rfl)))
  | some p =>
    rw [hx] at hp
    exact repaint_clean hS hP hc hQ (h1.emit (hp _ ⟨s.promptN, Or.inr rfl⟩))

theorem backspace_neat (h : Neat P E c o Q s) :
    Wp Any (cmdBackwardDeleteChar E s) (fun p => Neat P E c o Q p.1) := by
  refine Neat.both2 (backspace_mild hS hP hc h.easy) ?_
  unfold cmdBackwardDeleteChar
  split
  · refine Wp.seq (deleteCells_neat hS hP hc hQ (s := { s with cursor := s.cursor - 1 }) (h.of) _ _) fun p h1 => ?_
    obtain ⟨s1, n⟩ := p
    dsimp only
    refine Clean.cont (repaint_clean hS hP hc hQ ?_)
    split
    · exact h1.of
    · exact h1
  · exact h.clean

theorem deleteChar_clean (h : Neat P E c o Q s) : Wp Any (cmdDeleteChar E s) (fun p => Clean P E o Q p.1) := by
  unfold cmdDeleteChar
  refine Wp.seq (deleteCells_neat hS hP hc hQ h _ _) fun p h1 => ?_
  exact Clean.cont (repaint_clean hS hP hc hQ h1)

theorem selfInsertTail_clean (h : Neat P E c o Q s) {k : Bytes} (hk : Over P k) :
    Wp Any (selfInsertTail E s k) (fun p => Clean P E o Q p.1) := by
  unfold selfInsertTail
  refine Wp.seq (insertString_neat hS hP hc hQ h _ hk) fun p h1 => ?_
  obtain ⟨s1, n⟩ := p
  dsimp only
  refine Wp.seq Wp.any fun _ _ => ?_
  refine Clean.cont (repaint_clean hS hP hc hQ ?_)
  split
  · exact h1.of
  · exact h1.of

theorem selfInsert_clean (h : Neat P E c o Q s) {k : Bytes} (hk : Ed.Good P E.logic k) :
    Wp Any (cmdSelfInsert E k s) (fun p => Clean P E o Q p.1) := by
  have hunit : ∀ x ∈ s.buf, ValidUtf8 x.moji.write ∧ Over P x.moji.write := by
    intro x hx
    have hl : x.moji.norm ∈ s.ed.line := List.mem_map.mpr ⟨x, hx, rfl⟩
    rw [← Moji.norm_write]
    exact ⟨(h.easy.texts.built _ hl).valid, h.easy.texts.line _ hl⟩
  unfold cmdSelfInsert
  dsimp only
  split
  · rename_i hz
    rw [Bool.and_eq_true] at hz
    refine Wp.bind (((h.easy.at hP index_here).weaken (fun _ _ => trivial)).mono fun x _ hx => ?_)
    obtain ⟨v, o⟩ := hunit x hx
    refine (backspace_neat (c := c) hS hP hc hQ ?_).mono fun _ _ h => h.clean
    obtain ⟨⟨t, h3, h4⟩, h5⟩ := h
    exact ⟨⟨⟨t.built, t.line, t.suffix, t.undoes, (over_append v).mpr ⟨o, hk.over⟩, ValidUtf8.append v (hk.valid hz.1),
      t.modHist, t.clip⟩, h3, h4⟩, h5.of⟩
  · split
    · refine Wp.bind (((h.easy.at hP index_here).weaken (fun _ _ => trivial)).mono fun x _ hx => ?_)
      obtain ⟨v, o⟩ := hunit x hx
      refine Wp.seq (backspace_neat hS hP hc hQ h) fun p h1 => ?_
      exact selfInsertTail_clean hS hP hc hQ h1 ((over_append v).mpr ⟨o, hk.over⟩)
    · split
      · refine selfInsertTail_clean (c := c) hS hP hc hQ ?_ ((over_append h.easy.texts.whole).mpr ⟨h.easy.texts.pending, hk.over⟩)
        obtain ⟨⟨t, h3, h4⟩, h5⟩ := h
        exact ⟨⟨⟨t.built, t.line, t.suffix, t.undoes, over_nil, ValidUtf8.nil, t.modHist, t.clip⟩, h3, h4⟩, h5.of⟩
      · exact selfInsertTail_clean hS hP hc hQ h hk.over

theorem endOfLine_clean (h : Neat P E c o Q s) : Wp Any (cmdEndOfLine E s) (fun p => Clean P E o Q p.1) := by
  unfold cmdEndOfLine
  refine Wp.seq Wp.any fun _ _ => ?_
  split
  · exact Wp.seq (puts_neat hS hP hc hQ h _ _) fun s1 h1 => h1.clean.emit hQ.erase
  · refine Wp.seq Wp.any fun _ _ => ?_
    refine Wp.seq (puts_neat hS hP hc hQ (goto_neat hS hP hc hQ h) _ _) fun s1 h1 => h1.clean.emit hQ.erase

theorem forwardChar_clean (h : Neat P E c o Q s) : Wp Any (cmdForwardChar E s) (fun p => Clean P E o Q p.1) := by
  unfold cmdForwardChar
  split
  · split
    · exact Clean.cont (replaceAndRepaint_clean hS hP hc hQ h _ h.easy.texts.suffix)
    · exact h.clean
  · refine Wp.seq Wp.any fun _ _ => ?_
    split
    · exact Wp.seq (puts_neat hS hP hc hQ h _ _) fun s1 h1 => h1.clean.of
    · refine Wp.seq Wp.any fun _ _ => ?_
      refine Wp.seq Wp.any fun _ _ => ?_
      exact Wp.seq (puts_neat hS hP hc hQ (goto_neat hS hP hc hQ h) _ _) fun s1 h1 => h1.clean.emit hQ.erase

theorem killLine_clean (h : Neat P E c o Q s) : Wp Any (cmdKillLine E s) (fun p => Clean P E o Q p.1) := by
  unfold cmdKillLine
  refine Wp.seq Wp.any fun _ _ => ?_
  dsimp only
  refine Wp.seq Wp.any fun _ _ => ?_
  exact Wp.seq Wp.any fun _ _ => h.clean.emit hQ.erase

theorem wordRubout_clean (h : Neat P E c o Q s) : Wp Any (cmdUnixWordRubout E s) (fun p => Clean P E o Q p.1) := by
  unfold cmdUnixWordRubout
  dsimp only
  refine Wp.seq Wp.any fun _ _ => ?_
  refine Wp.seq Wp.any fun new _ => ?_
  refine Wp.bind (((h.easy.at' hP subString_here).weaken (fun _ _ => trivial)).mono fun t _ ht => ?_)
  obtain ⟨cs, rfl, hcs⟩ := ht
  have h1 : Neat P E c o Q _ := ⟨h.easy.clipped hS (h.easy.cut hcs), h.clean.of⟩
  refine Wp.seq (deleteCells_neat (c := c) hS hP hc hQ (h1.of) _ _) fun p h2 => ?_
  refine Clean.cont (repaint_clean hS hP hc hQ ?_)
  split
  · exact h2.of
  · exact h2.of

theorem lineDiscard_clean (h : Neat P E c o Q s) : Wp Any (cmdUnixLineDiscard E s) (fun p => Clean P E o Q p.1) := by
  unfold cmdUnixLineDiscard
  refine Wp.bind (((h.easy.at hP subString_here).weaken (fun _ _ => trivial)).mono fun t _ ht => ?_)
  obtain ⟨cs, rfl, hcs⟩ := ht
  have h1 : Neat P E c o Q _ := ⟨h.easy.clipped hS (h.easy.cut hcs), h.clean.of⟩
  refine Wp.seq (deleteCells_neat (c := c) hS hP hc hQ (h1.of) _ _) fun p h2 => ?_
  exact Clean.cont (repaint_clean hS hP hc hQ (h2.of))

theorem swapChar_clean (h : Neat P E c o Q s) : Wp Any (cmdSwapChar E s) (fun p => Clean P E o Q p.1) := by
  have hu : ∀ (two : List Cell) (i : Int) (d : Nat), (∀ x ∈ two, x ∈ s.buf) →
      ∀ x ∈ ({ pos := i, del := d, text := cell2string two } :: s.undoes : List Undo), Over P x.text := by
    intro two i d ht x hx
    rcases List.mem_cons.mp hx with rfl | hx
    · exact h.easy.cut ht
    · exact h.easy.texts.undoes x hx
  unfold cmdSwapChar
  split
  · split
    · exact h.clean
    · refine Wp.bind (((h.easy.at hP slice_here).weaken (fun _ _ => trivial)).mono fun two _ ht => ?_)
      have h1 : Neat P E c o Q _ := ⟨h.easy.pick (cs := swapAt s.buf (s.cursor - 2).toNat) (fun x hx => Ed.mem_swapAt hx)
        (hu two s.cursor 2 ht), h.clean.of⟩
      exact Clean.cont (Neat.forget (puts_neat (c := c) hS hP hc hQ (goto_neat hS hP hc hQ h1) _ _))
  · split
    · exact h.clean
    · refine Wp.bind (((h.easy.at hP slice_here).weaken (fun _ _ => trivial)).mono fun two _ ht => ?_)
      dsimp only
      refine Wp.seq Wp.any fun _ _ => ?_
      have h1 : Neat P E c o Q _ := ⟨h.easy.pick (cs := swapAt s.buf (s.cursor - 1).toNat) (fun x hx => Ed.mem_swapAt hx)
        (hu two (s.cursor - 1) 2 ht), h.clean.of⟩
      refine Clean.cont (Neat.forget (puts_neat (c := c) hS hP hc hQ ?_ _ _))
      split
      · exact goto_neat hS hP hc hQ h1
      · exact goto_neat hS hP hc hQ h1

theorem backwardWord_clean (h : Neat P E c o Q s) : Wp Any (cmdBackwardWord E s) (fun p => Clean P E o Q p.1) := by
  unfold cmdBackwardWord
  refine Wp.seq Wp.any fun _ _ => ?_
  refine Clean.cont (repaint_clean hS hP hc hQ ?_)
  split
  · exact h.of
  · exact h.of

theorem forwardWord_clean (h : Neat P E c o Q s) : Wp Any (cmdForwardWord E s) (fun p => Clean P E o Q p.1) := by
  unfold cmdForwardWord
  refine Wp.seq Wp.any fun _ _ => ?_
  refine Wp.seq Wp.any fun _ _ => ?_
  split
  · exact Wp.seq (puts_neat hS hP hc hQ h _ _) fun s1 h1 => h1.clean.of
  · exact Clean.cont (repaint_clean hS hP hc hQ (h.of))

theorem undo_clean (h : Neat P E c o Q s) : Wp Any (cmdUndo E s) (fun p => Clean P E o Q p.1) := by
  unfold cmdUndo
  cases hu : s.undoes with
  | nil => exact h.clean.emit hQ.bell
  | cons u rest =>
    dsimp only
    have hrest : ∀ x ∈ rest, Over P x.text := fun x hx => h.easy.texts.undoes x (by show x ∈ s.undoes; rw [hu]; simp [hx])
    have hul : Over P u.text := h.easy.texts.undoes u (by show u ∈ s.undoes; rw [hu]; simp)
    have h0 : Neat P E c o Q (gotoHead { s with undoes := rest }) := by
      have h1 : Neat P E c o Q { s with undoes := rest } := ⟨h.easy.pick (cs := s.buf) (fun x hx => hx) hrest, h.clean.of⟩
      exact goto_neat hS hP hc hQ h1
    have last : ∀ b1 : List Cell, (∀ x ∈ b1, x ∈ s.buf) → Wp Any (do
        let s2 ← (if u.text ≠ [] then do
            let cells := mojis2cells (stringToMoji E.cfg u.text)
            let b2 ← bufInsert { gotoHead { s with undoes := rest } with buf := b1 } u.pos cells
            pure { gotoHead { s with undoes := rest } with buf := b2, cursor := u.pos + cells.length }
          else pure { gotoHead { s with undoes := rest } with buf := b1, cursor := u.pos } : M St)
        let s2 ← repaint E (resetViewStart E s2)
        pure (s2, Result.cont)) (fun p => Clean P E o Q p.1) := by
      intro b1 hb1
      have h1 : Neat P E c o Q { gotoHead { s with undoes := rest } with buf := b1 } :=
        ⟨h0.easy.pick (u := rest) hb1 hrest, h0.clean.of⟩
      have fin : ∀ s2, Neat P E c o Q s2 → Wp Any (do
          let s2 ← repaint E (resetViewStart E s2)
          pure (s2, Result.cont)) (fun p => Clean P E o Q p.1) :=
        fun s2 h2 => Clean.cont (repaint_clean (c := c) hS hP hc hQ (h2.of))
      split
      · refine Wp.seq (P := Neat P E c o Q) ?_ fin
        refine Wp.bind (Wp.any.mono fun b2 hb2 _ => ?_)
        have hi := insertString_of hb2 (E := E)
        have h2 := (insertString_neat hS hP hc hQ h1 u.pos hul).ok hi
        obtain ⟨⟨t, h3, h4⟩, h5⟩ := h2
        exact Wp.pure ⟨⟨⟨t.built, t.line, t.suffix, hrest, t.pending, t.whole, t.modHist, t.clip⟩, h3, h4⟩, h5.of⟩
      · exact Wp.seq (P := Neat P E c o Q) (h1.of) fin
    split
    · refine Wp.bind (Wp.any.mono fun b1 hb1 _ => last b1 ?_)
      unfold bufDelete at hb1
      split at hb1
      · rename_i hl
        cases hb1
        intro x hx
        rw [sliceDelete_eq _ _ _ (by have := hl.1; have := hl.2; unfold St.len at *; omega)] at hx
        rcases List.mem_append.mp hx with hx | hx
        · exact List.mem_of_mem_take hx
        · exact List.mem_of_mem_drop hx
      · cases hb1
    · exact last _ fun x hx => hx

theorem killed_neat (h : Neat P E c o Q s) {p : St × Result} (hp : cmdKillWholeLine s = .ok p) : Neat P E c o Q p.1 := by
  refine ⟨h.easy.killed hp, ?_⟩
  unfold cmdKillWholeLine at hp
  cases pure_ok.mp hp
  have h1 : Neat P E c o Q (gotoHead s) := goto_neat hS hP hc hQ h
  exact h1.clean.emit hQ.erase

theorem showHistory_clean (h : Neat P E c o Q s) : Wp Any (showHistory E s) (fun p => Clean P E o Q p.1) := by
  unfold showHistory
  refine Wp.bind (Wp.any.mono fun p hp _ => ?_)
  have h1 := killed_neat hS hP hc hQ h hp
  obtain ⟨s1, n⟩ := p
  dsimp only at h1 ⊢
  refine Wp.bind (Wp.any.mono fun t ht _ => ?_)
  have hto : Over P t := by
    unfold getHistory at ht
    split at ht
    · rename_i hx; cases ht; exact h1.easy.texts.modHist _ _ hx
    · split at ht
      · cases ht; exact over_nil
      · exact hS.history _ ((index_here (s := s1)).ok ht)
  split
  · refine Wp.seq (insertString_neat hS hP hc hQ h1 _ hto) fun p h2 => ?_
    obtain ⟨s2, n⟩ := p
    dsimp only at h2 ⊢
    exact Wp.seq (endOfLine_clean (c := c) hS hP hc hQ (h2.of)) fun p h3 => h3
  · exact h1.clean

theorem saveModified_neat (h : Neat P E c o Q s) : Wp Any (saveModifiedHistory E s) (Neat P E c o Q) := by
  refine Neat.both (saveModified_mild hS hP hc h.easy) ?_
  unfold saveModifiedHistory
  dsimp only
  have last : ∀ b : Bool, Wp Any (if b = true then pure s else
      pure { s with modHist := fun i => if i = s.histPtr then some s.text else s.modHist i } : M St)
      (Clean P E o Q) := by
    intro b
    cases b
    · exact h.clean.of
    · exact h.clean
  split
  · exact Wp.seq (P := fun _ => True) (Wp.seq Wp.any fun _ _ => trivial) fun b _ => last b
  · exact last false

theorem getKey_neat {k : Option Bytes} {s' : St} (h : Neat P E c o Q s) (hg : getKey s = (k, s')) : Neat P E c o Q s' := by
  obtain ⟨rest, e⟩ := getKey_state hg
  rw [e]
  exact h.emit hQ.await

theorem quotedInsert_clean (h : Neat P E c o Q s) (hk : ∀ k, .key k ∈ s.input → Ed.Good P E.logic k) :
    Wp Any (cmdQuotedInsert E s) (fun p => Clean P E o Q p.1) := by
  unfold cmdQuotedInsert
  dsimp only
  generalize hg : getKey (s.emit .cursorOn) = g
  obtain ⟨k, s1⟩ := g
  have h1 : Neat P E c o Q s1 := getKey_neat hS hP hc hQ (s := s.emit .cursorOn) (h.emit hQ.on) hg
  cases k with
  | none => exact h1.clean.emit hQ.off
  | some k =>
    dsimp only
    have : Ed.Good P E.logic k := by
      refine hk k ?_
      unfold getKey at hg
      dsimp only at hg
      split at hg
      · rename_i hp
        cases hg
        exact popKey_mem hp
      · cases hg
      · cases hg
    exact Wp.seq (selfInsert_clean hS hP hc hQ h1 this) fun p h2 => Wp.pure (h2.emit hQ.off)

/-! ## Searching -/

theorem isearchDraw_over {it : ISt} (hh : ∀ r ∈ searchHead, P r) (hv : ValidUtf8 it.search) (h1 : Over P it.search)
    (h2 : Over P it.found) : Over P (isearchDraw it) := by
  have a1 : ∀ b : Bytes, (∀ x ∈ b, x < 0x80 ∧ P x.toNat) → ValidUtf8 b ∧ Over P b := fun b hb =>
    ascii_over hb
  have e1 := a1 [0x28, 0x69, 0x2D, 0x73, 0x65, 0x61, 0x72, 0x63, 0x68, 0x29, 0x5B] (fun x hx => by
    refine ⟨?_, hh _ ?_⟩
    · revert x; decide
    · revert x; decide)
  have e2 := a1 [0x5D, 0x3A] (fun x hx => by
    refine ⟨?_, hh _ ?_⟩
    · revert x; decide
    · revert x; decide)
  unfold isearchDraw
  exact (over_append (ValidUtf8.append (ValidUtf8.append e1.1 hv) e2.1)).mpr ⟨(over_append (ValidUtf8.append e1.1 hv)).mpr
    ⟨(over_append e1.1).mpr ⟨e1.2, h1⟩, e2.2⟩, h2⟩

theorem chopLast_over {t : Bytes} (h : Over P t) : Over P (chopLast t) ∧ ValidUtf8 (chopLast t) := by
  have hs : ∀ r ∈ (runesOf t).dropLast, isScalar r = true := fun r hr =>
    runesOf_isScalar t r ((List.dropLast_sublist _).subset hr)
  refine ⟨?_, validUtf8_encodeRunes hs⟩
  unfold Over chopLast
  rw [runesOf_encodeRunes hs]
  exact fun r hr => h r ((List.dropLast_sublist _).subset hr)

theorem isearchLoop_clean (hh : ∀ r ∈ searchHead, P r) (n : Nat) (it : ISt) (s : St) (h : Neat P E c o Q s)
    (hi : ∀ k, .key k ∈ s.input → isControlRune (decodeRune k).1 = true ∨ P (decodeRune k).1)
    (hv : ValidUtf8 it.search) (h1 : Over P it.search) (h2 : Over P it.found) :
    Wp Any (isearchLoop E n it s) (fun p => Clean P E o Q p.1) := by
  induction n generalizing it s with
  | zero => trivial
  | succ n ih =>
    unfold isearchLoop
    rw [drawLoop_eq]
    refine Wp.bind (Wp.any.mono fun s1 hs1 _ => ?_)
    have hin1 : s1.input = s.input := by obtain ⟨l, e⟩ := suffixLoop_glyphs _ _ hs1; rw [e]
    have ht1 : Neat P E c o Q s1 := by
      obtain ⟨l, e, hl⟩ := suffixLoop_mem _ _ hs1
      refine ⟨by rw [e]; exact h.easy.of, h.clean.glyphs hQ (fun m hm => ?_) (by rw [e]) (by rw [e])⟩
      exact mojis_plain hP (isearchDraw_over hS hP hc hQ hh hv h1 h2) hS.joined (hl m hm)
    dsimp only
    generalize hg : getKey ((eraseline s1).emit .cursorOn) = g
    obtain ⟨ok, s2⟩ := g
    have ht2 : Neat P E c o Q s2 := by
      have ha : Neat P E c o Q (eraseline s1) := ht1.emit hQ.erase
      exact getKey_neat hS hP hc hQ (s := (eraseline s1).emit .cursorOn) (ha.emit hQ.on) hg
    cases ok with
    | none => exact ht2.clean
    | some key =>
      dsimp only
      have hk : .key key ∈ s.input ∧ ∀ k, .key k ∈ s2.input → .key k ∈ s.input := by
        unfold getKey at hg
        dsimp only at hg
        split at hg
        · rename_i hp
          have hp : popKey s1.input = _ := hp
          rw [hin1] at hp
          cases hg
          exact ⟨popKey_mem hp, fun k hk => (popKey_sublist hp).subset hk⟩
        · cases hg
        · cases hg
      have ht3 : Neat P E c o Q (gotoHead (s2.emit .cursorOff)) := by
        have ha : Neat P E c o Q (s2.emit .cursorOff) := ht2.emit hQ.off
        exact goto_neat hS hP hc hQ ha
      have hi3 : ∀ k, .key k ∈ (gotoHead (s2.emit .cursorOff)).input →
          isControlRune (decodeRune k).1 = true ∨ P (decodeRune k).1 := fun k hx => hi k (hk.2 k hx)
      generalize gotoHead (s2.emit .cursorOff) = s3 at *
      split
      · obtain ⟨a, b⟩ := chopLast_over hS hP hc hQ h1
        refine ih _ _ ht3 hi3 ?_ ?_ (isearchUpdate_over hS hP hc _ _).1
        · rw [(isearchUpdate_over hS hP hc _ _).2]; exact b
        · rw [(isearchUpdate_over hS hP hc _ _).2]; exact a
      · split
        · have hkk : Neat P E c o Q { s3 with
              viewStart := 0
              undoes := ⟨0, 0, s3.text⟩ :: s3.undoes
              buf := []
              cursor := 0 } := by
            have := ht3.easy.pick (cs := []) (u := { pos := 0, del := 0, text := s3.text } :: s3.undoes)
              (fun x hx => (by cases hx)) (fun x hx => by
                rcases List.mem_cons.mp hx with rfl | hx
                · exact ht3.easy.cut fun x hx => hx
                · exact ht3.easy.texts.undoes x hx)
            exact ⟨this.of, ht3.clean.of⟩
          exact Clean.cont (replaceAndRepaint_clean hS hP hc hQ hkk _ h2)
        · split
          · refine Wp.seq Wp.any fun p _ => ?_
            refine Wp.seq (puts_neat hS hP hc hQ ht3 _ _) fun s4 h4 => ?_
            have ha : Neat P E c o Q (eraseline s4) := h4.emit hQ.erase
            exact Clean.cont (Neat.forget (puts_neat (c := c) hS hP hc hQ (goto_neat hS hP hc hQ ha) _ _))
          · split
            · refine Wp.bind (Wp.any.mono fun it' hit _ => ?_)
              obtain ⟨o, e⟩ := (isearchPrev_over hS hP hc h2 _ _).ok hit
              exact ih _ _ ht3 hi3 (e ▸ hv) (e ▸ h1) o
            · split
              · refine Wp.bind (Wp.any.mono fun it' hit _ => ?_)
                obtain ⟨o, e⟩ := (isearchNext_over hS hP hc h2 _ _).ok hit
                exact ih _ _ ht3 hi3 (e ▸ hv) (e ▸ h1) o
              · split
                · exact ih _ _ ht3 hi3 hv h1 h2
                · rename_i hctl
                  have hp := (hi key hk.1).resolve_left hctl
                  refine ih _ _ ht3 hi3 ?_ ?_ (isearchUpdate_over hS hP hc _ _).1
                  · rw [(isearchUpdate_over hS hP hc _ _).2]
                    exact ValidUtf8.append hv (validUtf8_encodeRune _)
                  · rw [(isearchUpdate_over hS hP hc _ _).2]
                    refine (over_append hv).mpr ⟨h1, ?_⟩
                    have := runesOf_encodeRunes (rs := [(decodeRune key).1]) (by simp [decode_isScalar])
                    unfold Over
                    rw [show encodeRune (decodeRune key).1 = encodeRunes [(decodeRune key).1] by simp [encodeRunes], this]
                    simpa using hp

/-! ## Commands -/

theorem call_clean {k : Cmd} (hb : k.builtin = true) (ha : Ed.Allowed P E.logic s.ed k)
    (hi : k = .isearchBackward → SearchOver P s.input) (hbox : ∀ K, k = .completion K → K.box = none)
    (hE : k = .clearScreen ∨ k = .repaintOnNewline → Emits P E c Q) (h : Neat P E c o Q s) :
    Wp Any (Cmd.call E k s) (fun p => Clean P E o Q p.1) := by
  cases k with
  | custom f => cases hb
  | acceptLine => exact h.clean
  | interrupt => exact h.clean.of
  | beginningOfLine => exact Clean.cont (repaint_clean (c := c) hS hP hc hQ (h.of))
  | backwardChar =>
    simp only [Cmd.call, cmdBackwardChar]
    split
    · exact h.clean
    · exact Clean.cont (repaint_clean (c := c) hS hP hc hQ (h.of))
  | endOfLine => exact endOfLine_clean hS hP hc hQ h
  | forwardChar => exact forwardChar_clean hS hP hc hQ h
  | backwardDeleteChar => exact (backspace_neat hS hP hc hQ h).mono fun _ _ h => h.clean
  | deleteChar => exact deleteChar_clean hS hP hc hQ h
  | deleteOrAbort =>
    simp only [Cmd.call, cmdDeleteOrAbort]
    split
    · exact deleteChar_clean hS hP hc hQ h
    · exact h.clean
  | killLine => exact killLine_clean hS hP hc hQ h
  | killWholeLine => exact Wp.of_ok fun p hp => (killed_neat hS hP hc hQ h hp).clean
  | unixWordRubout => exact wordRubout_clean hS hP hc hQ h
  | unixLineDiscard => exact lineDiscard_clean hS hP hc hQ h
  | clearScreen => exact Clean.cont (repaintAll_clean (c := c) hS hP hc hQ (hE (Or.inl rfl)) (h.emit (hE (Or.inl rfl)).clear))
  | repaintOnNewline => exact Clean.cont (repaintAll_clean (c := c) hS hP hc hQ (hE (Or.inr rfl)) (h.emit (hE (Or.inr rfl)).lf))
  | quotedInsert => exact quotedInsert_clean hS hP hc hQ h (ha.quoted rfl)
  | yank =>
    simp only [Cmd.call, cmdYank]
    cases hx : s.clip with
    | none => exact h.clean
    | some t => exact Clean.cont (replaceAndRepaint_clean hS hP hc hQ h _ (over_trim (h.easy.texts.clip t hx)))
  | yankWithQuote =>
    simp only [Cmd.call, cmdYankWithQuote]
    cases hx : s.clip with
    | none => exact h.clean
    | some t =>
      exact Clean.cont (replaceAndRepaint_clean hS hP hc hQ h _ (over_quote (h.easy.texts.clip t hx) (ha.quotes rfl)))
  | swapChar => exact swapChar_clean hS hP hc hQ h
  | backwardWord => exact backwardWord_clean hS hP hc hQ h
  | forwardWord => exact forwardWord_clean hS hP hc hQ h
  | undo => exact undo_clean hS hP hc hQ h
  | previousHistory =>
    simp only [Cmd.call, cmdPreviousHistory]
    split
    · exact h.clean
    · split
      · exact h.clean
      · refine Wp.seq (saveModified_neat (c := c) hS hP hc hQ ?_) fun s1 h1 =>
          showHistory_clean (c := c) hS hP hc hQ (h1.of)
        split
        · exact h.of
        · exact h
  | nextHistory =>
    simp only [Cmd.call, cmdNextHistory]
    split
    · exact h.clean
    · split
      · exact h.clean
      · exact Wp.seq (saveModified_neat hS hP hc hQ h) fun s1 h1 => showHistory_clean (c := c) hS hP hc hQ (h1.of)
  | isearchBackward =>
    obtain ⟨hh, hk⟩ := hi rfl
    exact isearchLoop_clean hS hP hc hQ hh _ _ _ (goto_neat hS hP hc hQ h) hk ValidUtf8.nil over_nil over_nil
  | selfInsert k => exact selfInsert_clean hS hP hc hQ h (ha.self k rfl)
  | completion K =>
    show Wp _ (cmdComplete E K s) _
    by_cases hl : s.cursor ≤ s.len
    · rw [cmdComplete_eq hl]
      cases hx : completionOf K.uni K.completer K.postfix_ s.before with
      | crash => trivial
      | nothing => exact h.clean
      | bell l =>
        unfold Outcome.call
        rw [hbox K rfl]
        exact h.clean.emit hQ.bell
      | insert pos t => exact Clean.cont (replaceAndRepaint_clean hS hP hc hQ h _ (ha.completion K rfl _ _ _ hx))
    · rw [cmdComplete_beyond hl]
      trivial

end
/-! ## Sessions -/

variable {P : Nat → Prop} {E : Env} {w : World} {s : St} {Q : Tok → Prop}

theorem start_clean (ho : Ordinary P E w) (hQ : Emits P E (promptWidth E w.promptN) Q) :
    Wp Any (startSt E w) (Clean P E w.out Q) := by
  have hS := ho.sources.src
  have ht : Easy P E (promptWidth E w.promptN) (promptSt E w) := promptSt_easy ho.modest
  have hn : Neat P E (promptWidth E w.promptN) w.out Q (promptSt E w) := by
    refine ⟨ht, ?_⟩
    have hp := hQ.prompt
    unfold PromptText at hp
    have h1 : ∀ s0 : St, Clean P E w.out Q s0 → Clean P E w.out Q (callPromptWriter E s0).2 := by
      intro s0 h0
      unfold callPromptWriter
      cases hx : E.prompt with
      | none => rw [hx] at hp; exact h0.emit (hp _ (Or.inl rfl))
      | some p => rw [hx] at hp; exact h0.emit (hp _ ⟨s0.promptN, Or.inl rfl⟩)
    unfold promptSt
    rw [ho.written]
    dsimp only
    have h2 : ∀ s0 : St, s0.out = w.out → s0.suffix = none → Clean P E w.out Q (callPromptWriter E s0).2 :=
      fun s0 e1 e2 => h1 s0 ⟨⟨[], by simp [e1], by simp⟩, fun m hm => by unfold St.suffixList at hm; rw [e2] at hm; cases hm⟩
    split
    · refine Clean.emit (t := .lit [0x0A]) ?_ hQ.lf rfl rfl
      exact h2 _ rfl rfl
    · refine Clean.of (s := (callPromptWriter E _).2) ?_ rfl rfl
      exact h2 _ rfl rfl
  unfold startSt
  refine Wp.seq (insertString_neat hS ho.plain ho.prompt hQ.toInks hn _ ho.sources.default) fun p h1 => ?_
  obtain ⟨s1, n⟩ := p
  dsimp only at h1 ⊢
  refine Wp.seq (P := Clean P E w.out Q) ?_ fun s2 h2 => Wp.pure (h2.emit hQ.on)
  unfold repaintAfterPrompt
  refine repaint_clean (c := promptWidth E w.promptN) hS ho.plain ho.prompt hQ.toInks ?_
  have : Neat P E (promptWidth E w.promptN) w.out Q (if s1.cursor > s1.len then { s1 with cursor := s1.len } else s1) := by
    split
    · exact h1.of
    · exact h1
  exact this.of

theorem ordinary_clean (hb : BuiltinKeys E) (ho : Ordinary P E w) (hx : Plainly P E w)
    (hQ : Emits P E (promptWidth E w.promptN) Q) (h : Reachable E w s) : Clean P E w.out Q s := by
  have hS := ho.sources.src
  induction h with
  | start h => exact (start_clean ho hQ).ok h
  | @step s s' h hst ih =>
    have ht := ordinary_easy hb ho.modest h
    have hin := reachable_input hb h
    have hn : Neat P E (promptWidth E w.promptN) w.out Q s := ⟨ht, ih⟩
    unfold step at hst
    cases hi : s.input with
    | nil => rw [hi] at hst; cases hst
    | cons ev rest =>
      rw [hi] at hst
      cases ev with
      | err x => cases hst
      | resize n =>
        dsimp only at hst
        obtain ⟨s1, h1, hst⟩ := bind_ok.mp hst
        cases pure_ok.mp hst
        unfold onResize at h1
        refine (repaintLastLine_clean (c := promptWidth E w.promptN) hS ho.plain ho.prompt hQ.toInks hQ ?_).ok h1
        have hw := ho.resized n (hin.subset (by rw [hi]; simp))
        obtain ⟨⟨t, h3, h4⟩, h5⟩ := hn
        exact ⟨⟨⟨t.built, t.line, t.suffix, t.undoes, t.pending, t.whole, t.modHist, t.clip⟩, h3, hw⟩, h5.of⟩
      | key k =>
        dsimp only at hst
        unfold execCmd at hst
        obtain ⟨⟨s1, rc⟩, h1, hst⟩ := bind_ok.mp hst
        have hk : .key k ∈ w.input := hin.subset (by rw [hi]; simp)
        have hsub : ∀ ev, ev ∈ rest → ev ∈ w.input := fun ev hev => hin.subset (by rw [hi]; exact List.mem_cons_of_mem _ hev)
        have ha := ho.sources.allowed (e := (({ s.emit .await with input := rest } : St).emit .cursorOff).ed) hk hsub
        have hn1 : Neat P E (promptWidth E w.promptN) w.out Q ({ s.emit .await with input := rest } : St) := hn.emit hQ.await
        have h2 := (call_clean (c := promptWidth E w.promptN) hS ho.plain ho.prompt hQ.toInks (BuiltinKeys.builtin hb k) ha
          (fun e => ⟨(hx.search k hk e).1, fun q hq => (hx.search k hk e).2 q (hsub _ hq)⟩)
          (fun K e => hx.box k K hk e) (fun _ => hQ) (hn1.emit hQ.off)).ok h1
        cases rc
        · cases pure_ok.mp hst
          exact h2.emit hQ.on
        · obtain ⟨p, _, hst⟩ := bind_ok.mp hst; cases pure_ok.mp hst
        · obtain ⟨p, _, hst⟩ := bind_ok.mp hst; cases pure_ok.mp hst
        · obtain ⟨p, _, hst⟩ := bind_ok.mp hst; cases pure_ok.mp hst

end Readline
