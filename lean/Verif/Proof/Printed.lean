import Verif.Proof.Clean
/-!
# Everything a session prints

Like `Proof/Clean.lean`, for all sessions: every piece of output satisfies a given predicate, if the
predicate holds for all units cutting can produce from the texts of the session, for the prompt, and
for the few control sequences.
-/
set_option linter.unusedSectionVars false

namespace Readline
open Spec

/-- `Q` holds for everything a session may write. -/
structure Permits (P : Nat → Prop) (E : Env) (Q : Tok → Prop) : Prop where
  off : Q .cursorOff
  on : Q .cursorOn
  flush : Q .flush
  await : Q .await
  erase : Q .eraseEol
  sgr : ∀ d, Q (.sgr d)
  goto : ∀ n, Q (.gotoCol n)
  glyph : ∀ m : Moji, Built E.cfg m.norm → Over P m.write → Q (.glyph m)
  color1 : Q (.lit E.predictColor.1)
  color2 : Q (.lit E.predictColor.2)
  bell : Q (.lit [7])
  prompt : ∀ b, PromptText E b → Q (.lit b)
  promptErr : ∀ e, E.promptErr = some e → Q (.lit (e ++ [0x0A, 0x24, 0x20]))
  lf : Q (.lit [0x0A])
  clear : Q (.lit [0x1B, 0x5B, 0x31, 0x3B, 0x31, 0x48, 0x1B, 0x5B, 0x32, 0x4A])
  box : ∀ k K f l, lookupCommand E k = .completion K → K.box = some f → Q (.lit (f l))

/-- What is written at the end is allowed as well. -/
structure Allows (P : Nat → Prop) (E : Env) (Q : Tok → Prop) : Prop extends Permits P E Q where
  lineFeed : ∀ f rc, E.lineFeed = some f → Q (.lit (f rc))

/-- All texts are over `P`. -/
structure Kept (P : Nat → Prop) (E : Env) (s : St) : Prop where
  texts : Ed.From P E.logic s.ed

/-- All output after `o` satisfies `Q`, and the prediction consists of units over `P`. -/
structure Written (P : Nat → Prop) (E : Env) (o : List Tok) (Q : Tok → Prop) (s : St) : Prop where
  out : ∃ ts, s.out = o ++ ts ∧ ∀ t ∈ ts, Q t
  hint : ∀ m ∈ s.suffixList, Built E.cfg m.norm ∧ Over P m.write

structure Holding (P : Nat → Prop) (E : Env) (o : List Tok) (Q : Tok → Prop) (s : St) : Prop where
  kept : Kept P E s
  written : Written P E o Q s

theorem mojis_built {C : Cfg} {P : Nat → Prop} {t : Bytes} (h : Over P t)
    (hj : C.zwjOk = true → P 0x200C ∨ P 0x200D → P 0x200D ∧ P 0xFFFD) {m : Moji} (hm : m ∈ stringToMoji C t) :
    Built C m.norm ∧ Over P m.write := by
  have hl : m.norm ∈ segs C t := List.mem_map.mpr ⟨m, hm, rfl⟩
  exact ⟨segs_built C t _ hl, by have := segs_over h hj _ hl; rwa [Moji.norm_write] at this⟩

section
variable {P : Nat → Prop} {E : Env} {s : St}

theorem Kept.unit (h : Kept P E s) {x : Cell} (hx : x ∈ s.buf) : Built E.cfg x.moji.norm ∧ Over P x.moji.write := by
  have hl : x.moji.norm ∈ s.ed.line := List.mem_map.mpr ⟨x, hx, rfl⟩
  exact ⟨h.texts.built _ hl, by have := h.texts.line _ hl; rwa [Moji.norm_write] at this⟩

theorem Kept.same {s' : St} (h : Kept P E s) (he : Same s s') : Kept P E s' := ⟨he.ed ▸ h.texts⟩

theorem Kept.of {s' : St} (h : Kept P E s) (he : s'.line = s.line ∧ s'.suffix = s.suffix ∧ s'.undoes = s.undoes ∧
    s'.pending = s.pending ∧ s'.modHist = s.modHist ∧ s'.clip = s.clip := by exact ⟨rfl, rfl, rfl, rfl, rfl, rfl⟩) :
    Kept P E s' := by
  obtain ⟨h1, h2, h3, h4, h5, h6⟩ := he
  obtain ⟨t⟩ := h
  refine ⟨⟨?_, ?_, ?_, ?_, ?_, ?_, ?_, ?_⟩⟩
  · show Ed.AllBuilt _ s'.line; rw [h1]; exact t.built
  · show OverL P s'.line; rw [h1]; exact t.line
  · show Over P (lineText (s'.suffix.getD [])); rw [h2]; exact t.suffix
  · show ∀ u ∈ s'.undoes, Over P u.text; rw [h3]; exact t.undoes
  · show Over P s'.pending; rw [h4]; exact t.pending
  · show ValidUtf8 s'.pending; rw [h4]; exact t.whole
  · show ∀ i t, s'.modHist i = some t → Over P t; rw [h5]; exact t.modHist
  · show ∀ t, s'.clip = some t → Over P t; rw [h6]; exact t.clip

theorem Kept.predict (hS : Ed.Src P E.logic) (h : Kept P E s) : Kept P E (updateSuffix E s) :=
  ⟨updateSuffix_ed E s ▸ h.texts.predict hS⟩

theorem Kept.cut (h : Kept P E s) {cs : List Cell} (hcs : ∀ x ∈ cs, x ∈ s.buf) : Over P (cell2string cs) := by
  rw [cell2string_eq]
  refine h.texts.cut fun m hm => ?_
  obtain ⟨x, hx, rfl⟩ := List.mem_map.mp hm
  exact List.mem_map.mpr ⟨x, hcs x hx, rfl⟩

theorem Kept.clipped (hS : Ed.Src P E.logic) (h : Kept P E s) {t : Bytes} (ht : Over P t) :
    Kept P E { s with clip := E.clipSet s.clip t } := ⟨h.texts.clipSet hS ht⟩

theorem Kept.pick (h : Kept P E s) {cs : List Cell} {u : List Undo} (hcs : ∀ x ∈ cs, x ∈ s.buf)
    (hu : ∀ x ∈ u, Over P x.text) : Kept P E { s with buf := cs, undoes := u } := by
  obtain ⟨t⟩ := h
  have hm : ∀ m ∈ cs.map (fun x : Cell => x.moji.norm), m ∈ s.ed.line := by
    intro m hm
    obtain ⟨x, hx, rfl⟩ := List.mem_map.mp hm
    exact List.mem_map.mpr ⟨x, hcs x hx, rfl⟩
  exact ⟨⟨fun m hx => t.built m (hm m hx), fun m hx => t.line m (hm m hx), t.suffix, hu, t.pending, t.whole, t.modHist,
    t.clip⟩⟩

theorem Kept.killed (h : Kept P E s) {p : St × Result} (hp : cmdKillWholeLine s = .ok p) : Kept P E p.1 := by
  unfold cmdKillWholeLine at hp
  cases pure_ok.mp hp
  have := h.pick (cs := []) (u := { pos := 0, del := 0, text := s.text } :: s.undoes) (fun x hx => (by cases hx))
    (fun x hx => by
      rcases List.mem_cons.mp hx with rfl | hx
      · exact h.cut fun x hx => hx
      · exact h.texts.undoes x hx)
  exact this.of

theorem puts_kept (h : Kept P E s) (lo hi : Int) : Wp Any (puts E s lo hi) (Kept P E) :=
  Wp.of_ok fun _ hs => h.same (puts_same hs).1

theorem repaintNoSuffix_kept (h : Kept P E s) : Wp Any (repaintNoSuffix E s) (Kept P E) :=
  Wp.of_ok fun _ hs => h.same (repaintNoSuffix_same hs).1

theorem searchDraw_kept {it : ISt} (hh : ∀ r ∈ searchHead, P r) (hv : ValidUtf8 it.search) (h1 : Over P it.search)
    (h2 : Over P it.found) : Over P (isearchDraw it) := by
  have a1 : ∀ b : Bytes, (∀ x ∈ b, x < 0x80 ∧ P x.toNat) → ValidUtf8 b ∧ Over P b := fun b hb =>
    ascii_over hb
  have e1 := a1 [0x28, 0x69, 0x2D, 0x73, 0x65, 0x61, 0x72, 0x63, 0x68, 0x29, 0x5B] (fun x hx => by
    refine ⟨?_, hh _ ?_⟩
    · revert x; decide
    · revert x; decide)
  have e2 := a1 [0x5D, 0x3A] (fun x hx => by
    refine ⟨?_, hh _ ?_⟩
    · revert x; decide
    · revert x; decide)
  unfold isearchDraw
  exact (over_append (ValidUtf8.append (ValidUtf8.append e1.1 hv) e2.1)).mpr ⟨(over_append (ValidUtf8.append e1.1 hv)).mpr
    ⟨(over_append e1.1).mpr ⟨e1.2, h1⟩, e2.2⟩, h2⟩

theorem searchChop_kept {t : Bytes} (h : Over P t) : Over P (chopLast t) ∧ ValidUtf8 (chopLast t) := by
  have hs : ∀ r ∈ (runesOf t).dropLast, isScalar r = true := fun r hr =>
    runesOf_isScalar t r ((List.dropLast_sublist _).subset hr)
  refine ⟨?_, validUtf8_encodeRunes hs⟩
  unfold Over chopLast
  rw [runesOf_encodeRunes hs]
  exact fun r hr => h r ((List.dropLast_sublist _).subset hr)


variable (hS : Ed.Src P E.logic)
include hS

theorem insertString_kept (h : Kept P E s) (pos : Int) {t : Bytes} (ht : Over P t) :
    Wp Any (insertString E s pos t) (fun p => Kept P E p.1) :=
  Wp.of_ok fun _ hp => ⟨(insertString_ok hp).2.1 ▸ h.texts.insert hS pos ht⟩

theorem deleteCells_kept (h : Kept P E s) (pos n : Int) : Wp Any (deleteCells E s pos n) (fun p => Kept P E p.1) :=
  Wp.of_ok fun _ hp => ⟨(deleteCells_ok hp).1 ▸ h.texts.delete pos n⟩

theorem backspace_kept (h : Kept P E s) : Wp Any (cmdBackwardDeleteChar E s) (fun p => Kept P E p.1) :=
  Wp.of_ok fun _ hp => ⟨(backspace_ed hp).1 ▸ h.texts.backspace hS⟩

theorem saveModified_kept (h : Kept P E s) : Wp Any (saveModifiedHistory E s) (Kept P E) := by
  unfold saveModifiedHistory
  dsimp only
  have last : ∀ b : Bool, Wp Any (if b = true then pure s else
      pure { s with modHist := fun i => if i = s.histPtr then some s.text else s.modHist i } : M St)
      (Kept P E) := by
    intro b
    cases b
    · obtain ⟨t⟩ := id h
      refine Wp.pure ⟨⟨t.built, t.line, t.suffix, t.undoes, t.pending, t.whole, fun i x hx => ?_, t.clip⟩⟩
      change (if i = s.histPtr then some s.text else s.modHist i) = some x at hx
      split at hx
      · cases hx; exact h.cut fun x hx => hx
      · exact t.modHist i x hx
    · exact h
  split
  · exact Wp.seq (P := fun _ => True) (Wp.seq Wp.any fun _ _ => trivial) fun b _ => last b
  · exact last false

theorem searchUpdate_kept (it : ISt) (n : Nat) :
    Over P (isearchUpdate E it n).found ∧ (isearchUpdate E it n).search = it.search := by
  induction n with
  | zero => exact ⟨over_nil, rfl⟩
  | succ n ih =>
    unfold isearchUpdate
    split
    · exact ⟨over_nil, rfl⟩
    · rename_i hx
      split
      · exact ⟨hS.history _ (List.mem_of_getElem? hx), rfl⟩
      · exact ih

theorem searchPrev_kept {it : ISt} (h2 : Over P it.found) (n : Nat) (i : Int) :
    Wp Any (isearchPrev E s it n i) (fun it' => Over P it'.found ∧ it'.search = it.search) := by
  induction n generalizing i with
  | zero => trivial
  | succ n ih =>
    unfold isearchPrev
    dsimp only
    generalize (if i < 0 then E.histLen - 1 else i) = j
    split
    · exact Wp.pure ⟨h2, rfl⟩
    · refine Wp.bind ((histAt_here.weaken fun _ _ => trivial).mono fun line _ hl => ?_)
      split
      · exact Wp.pure ⟨hS.history _ hl, rfl⟩
      · exact ih _

theorem searchNext_kept {it : ISt} (h2 : Over P it.found) (n : Nat) (i : Int) :
    Wp Any (isearchNext E s it n i) (fun it' => Over P it'.found ∧ it'.search = it.search) := by
  induction n generalizing i with
  | zero => trivial
  | succ n ih =>
    unfold isearchNext
    split
    · exact Wp.pure ⟨h2, rfl⟩
    · split
      · exact Wp.pure ⟨h2, rfl⟩
      · refine Wp.bind ((histAt_here.weaken fun _ _ => trivial).mono fun line _ hl => ?_)
        split
        · exact Wp.pure ⟨hS.history _ hl, rfl⟩
        · exact ih _

end

section
variable {P : Nat → Prop} {E : Env} {o : List Tok} {Q : Tok → Prop} {s : St}

theorem Written.of {s' : St} (h : Written P E o Q s) (ho : s'.out = s.out := by rfl) (hs : s'.suffix = s.suffix := by rfl) :
    Written P E o Q s' := by
  obtain ⟨h1, h2⟩ := h
  exact ⟨ho ▸ h1, by unfold St.suffixList; rw [hs]; exact h2⟩

theorem Written.emit {s' : St} {t : Tok} (h : Written P E o Q s) (ht : Q t) (ho : s'.out = s.out ++ [t] := by rfl)
    (hs : s'.suffix = s.suffix := by rfl) : Written P E o Q s' := by
  obtain ⟨ts, e, hts⟩ := h.out
  refine ⟨⟨ts ++ [t], by rw [ho, e, List.append_assoc], fun x hx => ?_⟩, by unfold St.suffixList; rw [hs]; exact h.hint⟩
  rcases List.mem_append.mp hx with hx | hx
  · exact hts x hx
  · rw [List.mem_singleton.mp hx]; exact ht

theorem Holding.of {s' : St} (h : Holding P E o Q s) (he : s'.line = s.line ∧ s'.suffix = s.suffix ∧ s'.undoes = s.undoes ∧
    s'.pending = s.pending ∧ s'.modHist = s.modHist ∧ s'.clip = s.clip := by exact ⟨rfl, rfl, rfl, rfl, rfl, rfl⟩) (ho : s'.out = s.out := by rfl) :
    Holding P E o Q s' := ⟨h.kept.of he, h.written.of ho he.2.1⟩

theorem Holding.emit {s' : St} {t : Tok} (h : Holding P E o Q s) (ht : Q t) (he : s'.line = s.line ∧ s'.suffix = s.suffix ∧
    s'.undoes = s.undoes ∧ s'.pending = s.pending ∧ s'.modHist = s.modHist ∧ s'.clip = s.clip := by exact ⟨rfl, rfl, rfl, rfl, rfl, rfl⟩)
    (ho : s'.out = s.out ++ [t] := by rfl) : Holding P E o Q s' := ⟨h.kept.of he, h.written.emit ht ho he.2.1⟩

theorem Written.glyphs {s' : St} {l : List Moji} (hQ : Permits P E Q) (h : Written P E o Q s)
    (hl : ∀ m ∈ l, Built E.cfg m.norm ∧ Over P m.write) (ho : s'.out = s.out ++ l.map Tok.glyph)
    (hs : s'.suffix = s.suffix := by rfl) : Written P E o Q s' := by
  obtain ⟨ts, e, hts⟩ := h.out
  refine ⟨⟨ts ++ l.map Tok.glyph, by rw [ho, e, List.append_assoc], fun x hx => ?_⟩,
    by unfold St.suffixList; rw [hs]; exact h.hint⟩
  rcases List.mem_append.mp hx with hx | hx
  · exact hts x hx
  · obtain ⟨m, hm, rfl⟩ := List.mem_map.mp hx
    exact hQ.glyph m (hl m hm).1 (hl m hm).2

/-- The two halves of a result. -/
theorem Holding.both {R : Panic → Prop} {x : M St} (h : Wp R x (Kept P E)) (h' : Wp Any x (Written P E o Q)) :
    Wp Any x (Holding P E o Q) := Wp.of_ok fun _ e => ⟨h.ok e, h'.ok e⟩

theorem Holding.both2 {R : Panic → Prop} {x : M (St × α)} (h : Wp R x (fun p => Kept P E p.1))
    (h' : Wp Any x (fun p => Written P E o Q p.1)) : Wp Any x (fun p => Holding P E o Q p.1) :=
  Wp.of_ok fun _ e => ⟨h.ok e, h'.ok e⟩

theorem Written.cont {x : M St} (h : Wp Any x (Written P E o Q)) {r : Result} :
    Wp Any (x >>= fun s => Pure.pure (s, r)) (fun p => Written P E o Q p.1) := Wp.seq h fun _ h1 => h1

theorem Holding.forget {x : M St} (h : Wp Any x (Holding P E o Q)) : Wp Any x (Written P E o Q) := h.mono fun _ _ h => h.written

variable (hS : Ed.Src P E.logic) (hQ : Permits P E Q)
include hS hQ

theorem goto_holding {s' : St} (h : Holding P E o Q s) (he : s'.line = s.line ∧ s'.suffix = s.suffix ∧
    s'.undoes = s.undoes ∧ s'.pending = s.pending ∧ s'.modHist = s.modHist ∧ s'.clip = s.clip := by exact ⟨rfl, rfl, rfl, rfl, rfl, rfl⟩)
    (ho : s'.out = s.out ++ [.gotoCol (s.topColumn + 1)] := by rfl) : Holding P E o Q s' :=
  h.emit (hQ.goto _) he ho

theorem goto_written {s' : St} (h : Kept P E s) (h' : Written P E o Q s) (hs : s'.suffix = s.suffix := by rfl)
    (ho : s'.out = s.out ++ [.gotoCol (s.topColumn + 1)] := by rfl) : Written P E o Q s' :=
  h'.emit (hQ.goto _) ho hs

theorem puts_holding (h : Holding P E o Q s) (lo hi : Int) : Wp Any (puts E s lo hi) (Holding P E o Q) := by
  refine Holding.both (puts_kept h.kept lo hi) (Wp.of_ok fun s' hs' => ?_)
  unfold puts at hs'
  obtain ⟨x, h0, hs'⟩ := bind_ok.mp hs'
  obtain ⟨s1, h1, hs'⟩ := bind_ok.mp hs'
  obtain ⟨cs, h2, hs'⟩ := bind_ok.mp hs'
  obtain ⟨⟨s2, col⟩, h3, hs'⟩ := bind_ok.mp hs'
  have hn1 : Written P E o Q s1 := by
    unfold refreshColor at h1
    split at h1
    · cases h1
    · cases h1; exact h.written.of
  have hsame := refreshColor_same h1
  have he1 : Kept P E s1 := h.kept.same hsame
  have hn2 : Written P E o Q s2 := by
    obtain ⟨ts, e, ht⟩ := putsLoop_toks cs h3
    rw [e]
    obtain ⟨ts0, e0, hts⟩ := hn1.out
    refine ⟨⟨ts0 ++ ts, by rw [← List.append_assoc, ← e0], fun t hx => ?_⟩, hn1.hint⟩
    rcases List.mem_append.mp hx with hx | hx
    · exact hts t hx
    · rcases ht t hx with ⟨d, rfl⟩ | ⟨y, hy, rfl⟩
      · exact hQ.sgr d
      · obtain ⟨hb, ho⟩ := he1.unit ((slice_here (s := s1)).ok h2 y hy)
        exact hQ.glyph _ hb ho
  cases pure_ok.mp hs'
  split
  · exact hn2.emit (hQ.sgr _)
  · exact hn2

theorem repaintNoSuffix_holding (h : Holding P E o Q s) : Wp Any (repaintNoSuffix E s) (Holding P E o Q) := by
  refine Holding.both (repaintNoSuffix_kept h.kept) ?_
  unfold repaintNoSuffix
  refine Wp.seq Wp.any fun p _ => ?_
  obtain ⟨n, w⟩ := p
  dsimp only
  refine Wp.seq (puts_holding hS hQ (s := gotoHead s) (goto_holding hS hQ h) _ _) fun s1 h1 => ?_
  have last : ∀ s2, Holding P E o Q s2 →
      Wp Any (puts E (gotoHead (eraseline s2)) (gotoHead (eraseline s2)).viewStart
        (gotoHead (eraseline s2)).cursor) (Written P E o Q) := fun s2 h2 =>
    Holding.forget (puts_holding hS hQ (goto_holding hS hQ (s := eraseline s2) (h2.emit hQ.erase)) _ _)
  split
  · refine Wp.seq (P := Holding P E o Q) ?_ last
    refine Wp.of_ok fun s2 h2 => ?_
    obtain ⟨s3, h3, h4⟩ := bind_ok.mp h2
    obtain ⟨l, e, hl⟩ := suffixLoop_mem _ _ h3
    cases pure_ok.mp h4
    have hc1 : Holding P E o Q (s1.emit (.lit E.predictColor.1)) := h1.emit hQ.color1
    have : Holding P E o Q s3 := by
      refine ⟨by rw [e]; exact hc1.kept.of, hc1.written.glyphs hQ (fun m hm => ?_) (by rw [e]) (by rw [e])⟩
      have hm : m ∈ s1.suffixList := by
        have hm : m ∈ (s1.emit (.lit E.predictColor.1)).visibleSuffix E := hl m hm
        unfold St.visibleSuffix at hm
        split at hm
        · cases hm
        · split at hm
          · cases hm
          · exact hm
      exact h1.written.hint m hm
    exact this.emit hQ.color2
  · exact Wp.seq (P := Holding P E o Q) h1 last

theorem Holding.predict (h : Holding P E o Q s) : Holding P E o Q (updateSuffix E s) := by
  refine ⟨h.kept.predict hS, ?_⟩
  unfold updateSuffix
  split
  · exact h.written
  · split
    · exact ⟨h.written.out, fun m hm => by cases hm⟩
    · refine ⟨h.written.out, fun m hm => mojis_built ?_ hS.joined hm⟩
      have hx : Over P (cell2string s.buf) := h.kept.cut fun x hx => hx
      refine hS.predict _ ?_ hx
      show ValidUtf8 (cell2string s.buf)
      rw [cell2string_eq]
      exact lineText_valid h.kept.texts.built

theorem repaint_holding (h : Holding P E o Q s) : Wp Any (repaint E s) (Holding P E o Q) :=
  repaintNoSuffix_holding hS hQ (Holding.predict hS hQ h)

theorem repaint_written (h : Holding P E o Q s) : Wp Any (repaint E s) (Written P E o Q) :=
  Holding.forget (repaint_holding hS hQ h)

theorem insertString_holding (h : Holding P E o Q s) (pos : Int) {t : Bytes} (ht : Over P t) :
    Wp Any (insertString E s pos t) (fun p => Holding P E o Q p.1) := by
  refine Holding.both2 (insertString_kept hS h.kept pos ht) ?_
  unfold insertString insertCells bufInsert
  dsimp only
  split
  · exact h.written.of
  · exact trivial

theorem deleteCells_holding (h : Holding P E o Q s) (pos n : Int) :
    Wp Any (deleteCells E s pos n) (fun p => Holding P E o Q p.1) := by
  refine Holding.both2 (deleteCells_kept hS h.kept pos n) ?_
  unfold deleteCells
  split
  · exact h.written
  · refine Wp.seq Wp.any fun _ _ => ?_
    dsimp only
    exact Wp.seq Wp.any fun _ _ => h.written.of

theorem replaceAndRepaint_holding (h : Holding P E o Q s) (pos : Int) {t : Bytes} (ht : Over P t) :
    Wp Any (replaceAndRepaint E s pos t) (Holding P E o Q) := by
  unfold replaceAndRepaint
  refine Wp.seq (deleteCells_holding hS hQ h _ _) fun p h1 => ?_
  obtain ⟨s1, n⟩ := p
  dsimp only
  refine Wp.seq (insertString_holding hS hQ h1 _ ht) fun p h2 => ?_
  obtain ⟨s2, ins⟩ := p
  dsimp only
  refine repaint_holding hS hQ ?_
  rw [joinUndo_eq]
  obtain ⟨⟨t⟩, h5⟩ := h2
  exact ⟨⟨⟨t.built, t.line, t.suffix, Ed.joinUndoes_over t.undoes, t.pending, t.whole, t.modHist, t.clip⟩⟩, h5.of⟩

theorem replaceAndRepaint_written (h : Holding P E o Q s) (pos : Int) {t : Bytes} (ht : Over P t) :
    Wp Any (replaceAndRepaint E s pos t) (Written P E o Q) := Holding.forget (replaceAndRepaint_holding hS hQ h pos ht)

theorem prompt_holding (h : Holding P E o Q s) :
    Holding P E o Q { (callPromptWriter E s).2 with topColumn := (callPromptWriter E s).1 } := by
  obtain ⟨he, hcl⟩ := h
  have hp := hQ.prompt
  unfold PromptText at hp
  unfold callPromptWriter
  cases hx : E.prompt with
  | none =>
    rw [hx] at hp
    exact ⟨⟨he.texts⟩, hcl.emit (hp _ (Or.inl rfl))⟩
  | some p =>
    rw [hx] at hp
    exact ⟨⟨he.texts⟩, hcl.emit (hp _ ⟨s.promptN, Or.inl rfl⟩)⟩

theorem repaintAll_written (h : Holding P E o Q s) : Wp Any (repaintAll E s) (Written P E o Q) := by
  unfold repaintAll
  exact repaint_written hS hQ (prompt_holding hS hQ (s := s.emit .flush) (h.emit hQ.flush))

theorem repaintLastLine_written (h : Holding P E o Q s) : Wp Any (repaintLastLine E s) (Written P E o Q) := by
  have hp := hQ.prompt
  unfold PromptText at hp
  have h1 : Holding P E o Q (s.emit .flush) := h.emit hQ.flush
  unfold repaintLastLine
  dsimp only
  cases hx : E.prompt with
  | none =>
    rw [hx] at hp
    exact repaint_written hS hQ (h1.emit (hp _ (Or.inr rfl)))
  | some p =>
    rw [hx] at hp
    exact repaint_written hS hQ (h1.emit (hp _ ⟨s.promptN, Or.inr rfl⟩))

theorem backspace_holding (h : Holding P E o Q s) :
    Wp Any (cmdBackwardDeleteChar E s) (fun p => Holding P E o Q p.1) := by
  refine Holding.both2 (backspace_kept hS h.kept) ?_
  unfold cmdBackwardDeleteChar
  split
  · refine Wp.seq (deleteCells_holding hS hQ (s := { s with cursor := s.cursor - 1 }) (h.of) _ _) fun p h1 => ?_
    obtain ⟨s1, n⟩ := p
    dsimp only
    refine Written.cont (repaint_written hS hQ ?_)
    split
    · exact h1.of
    · exact h1
  · exact h.written

theorem deleteChar_written (h : Holding P E o Q s) : Wp Any (cmdDeleteChar E s) (fun p => Written P E o Q p.1) := by
  unfold cmdDeleteChar
  refine Wp.seq (deleteCells_holding hS hQ h _ _) fun p h1 => ?_
  exact Written.cont (repaint_written hS hQ h1)

theorem selfInsertTail_written (h : Holding P E o Q s) {k : Bytes} (hk : Over P k) :
    Wp Any (selfInsertTail E s k) (fun p => Written P E o Q p.1) := by
  unfold selfInsertTail
  refine Wp.seq (insertString_holding hS hQ h _ hk) fun p h1 => ?_
  obtain ⟨s1, n⟩ := p
  dsimp only
  refine Wp.seq Wp.any fun _ _ => ?_
  refine Written.cont (repaint_written hS hQ ?_)
  split
  · exact h1.of
  · exact h1.of

theorem selfInsert_written (h : Holding P E o Q s) {k : Bytes} (hk : Ed.Good P E.logic k) :
    Wp Any (cmdSelfInsert E k s) (fun p => Written P E o Q p.1) := by
  have hunit : ∀ x ∈ s.buf, ValidUtf8 x.moji.write ∧ Over P x.moji.write := by
    intro x hx
    have hl : x.moji.norm ∈ s.ed.line := List.mem_map.mpr ⟨x, hx, rfl⟩
    rw [← Moji.norm_write]
    exact ⟨(h.kept.texts.built _ hl).valid, h.kept.texts.line _ hl⟩
  unfold cmdSelfInsert
  dsimp only
  split
  · rename_i hz
    rw [Bool.and_eq_true] at hz
    refine Wp.bind ((index_here.weaken (fun _ _ => trivial)).mono fun x _ hx => ?_)
    obtain ⟨v, o⟩ := hunit x hx
    refine (backspace_holding hS hQ ?_).mono fun _ _ h => h.written
    obtain ⟨⟨t⟩, h5⟩ := h
    exact ⟨⟨⟨t.built, t.line, t.suffix, t.undoes, (over_append v).mpr ⟨o, hk.over⟩, ValidUtf8.append v (hk.valid hz.1),
      t.modHist, t.clip⟩⟩, h5.of⟩
  · split
    · refine Wp.bind ((index_here.weaken (fun _ _ => trivial)).mono fun x _ hx => ?_)
      obtain ⟨v, o⟩ := hunit x hx
      refine Wp.seq (backspace_holding hS hQ h) fun p h1 => ?_
      exact selfInsertTail_written hS hQ h1 ((over_append v).mpr ⟨o, hk.over⟩)
    · split
      · refine selfInsertTail_written hS hQ ?_ ((over_append h.kept.texts.whole).mpr ⟨h.kept.texts.pending, hk.over⟩)
        obtain ⟨⟨t⟩, h5⟩ := h
        exact ⟨⟨⟨t.built, t.line, t.suffix, t.undoes, over_nil, ValidUtf8.nil, t.modHist, t.clip⟩⟩, h5.of⟩
      · exact selfInsertTail_written hS hQ h hk.over

theorem endOfLine_written (h : Holding P E o Q s) : Wp Any (cmdEndOfLine E s) (fun p => Written P E o Q p.1) := by
  unfold cmdEndOfLine
  refine Wp.seq Wp.any fun _ _ => ?_
  split
  · exact Wp.seq (puts_holding hS hQ h _ _) fun s1 h1 => h1.written.emit hQ.erase
  · refine Wp.seq Wp.any fun _ _ => ?_
    refine Wp.seq (puts_holding hS hQ (goto_holding hS hQ h) _ _) fun s1 h1 => h1.written.emit hQ.erase

theorem forwardChar_written (h : Holding P E o Q s) : Wp Any (cmdForwardChar E s) (fun p => Written P E o Q p.1) := by
  unfold cmdForwardChar
  split
  · split
    · exact Written.cont (replaceAndRepaint_written hS hQ h _ h.kept.texts.suffix)
    · exact h.written
  · refine Wp.seq Wp.any fun _ _ => ?_
    split
    · exact Wp.seq (puts_holding hS hQ h _ _) fun s1 h1 => h1.written.of
    · refine Wp.seq Wp.any fun _ _ => ?_
      refine Wp.seq Wp.any fun _ _ => ?_
      exact Wp.seq (puts_holding hS hQ (goto_holding hS hQ h) _ _) fun s1 h1 => h1.written.emit hQ.erase

theorem killLine_written (h : Holding P E o Q s) : Wp Any (cmdKillLine E s) (fun p => Written P E o Q p.1) := by
  unfold cmdKillLine
  refine Wp.seq Wp.any fun _ _ => ?_
  dsimp only
  refine Wp.seq Wp.any fun _ _ => ?_
  exact Wp.seq Wp.any fun _ _ => h.written.emit hQ.erase

theorem wordRubout_written (h : Holding P E o Q s) : Wp Any (cmdUnixWordRubout E s) (fun p => Written P E o Q p.1) := by
  unfold cmdUnixWordRubout
  dsimp only
  refine Wp.seq Wp.any fun _ _ => ?_
  refine Wp.seq Wp.any fun new _ => ?_
  refine Wp.bind ((subString_here.weaken (fun _ _ => trivial)).mono fun t _ ht => ?_)
  obtain ⟨cs, rfl, hcs⟩ := ht
  have h1 : Holding P E o Q _ := ⟨h.kept.clipped hS (h.kept.cut hcs), h.written.of⟩
  refine Wp.seq (deleteCells_holding hS hQ (h1.of) _ _) fun p h2 => ?_
  refine Written.cont (repaint_written hS hQ ?_)
  split
  · exact h2.of
  · exact h2.of

theorem lineDiscard_written (h : Holding P E o Q s) : Wp Any (cmdUnixLineDiscard E s) (fun p => Written P E o Q p.1) := by
  unfold cmdUnixLineDiscard
  refine Wp.bind ((subString_here.weaken (fun _ _ => trivial)).mono fun t _ ht => ?_)
  obtain ⟨cs, rfl, hcs⟩ := ht
  have h1 : Holding P E o Q _ := ⟨h.kept.clipped hS (h.kept.cut hcs), h.written.of⟩
  refine Wp.seq (deleteCells_holding hS hQ (h1.of) _ _) fun p h2 => ?_
  exact Written.cont (repaint_written hS hQ (h2.of))

theorem swapChar_written (h : Holding P E o Q s) : Wp Any (cmdSwapChar E s) (fun p => Written P E o Q p.1) := by
  have hu : ∀ (two : List Cell) (i : Int) (d : Nat), (∀ x ∈ two, x ∈ s.buf) →
      ∀ x ∈ ({ pos := i, del := d, text := cell2string two } :: s.undoes : List Undo), Over P x.text := by
    intro two i d ht x hx
    rcases List.mem_cons.mp hx with rfl | hx
    · exact h.kept.cut ht
    · exact h.kept.texts.undoes x hx
  unfold cmdSwapChar
  split
  · split
    · exact h.written
    · refine Wp.bind ((slice_here.weaken (fun _ _ => trivial)).mono fun two _ ht => ?_)
      have h1 : Holding P E o Q _ := ⟨h.kept.pick (cs := swapAt s.buf (s.cursor - 2).toNat) (fun x hx => Ed.mem_swapAt hx)
        (hu two s.cursor 2 ht), h.written.of⟩
      exact Written.cont (Holding.forget (puts_holding hS hQ (goto_holding hS hQ h1) _ _))
  · split
    · exact h.written
    · refine Wp.bind ((slice_here.weaken (fun _ _ => trivial)).mono fun two _ ht => ?_)
      dsimp only
      refine Wp.seq Wp.any fun _ _ => ?_
      have h1 : Holding P E o Q _ := ⟨h.kept.pick (cs := swapAt s.buf (s.cursor - 1).toNat) (fun x hx => Ed.mem_swapAt hx)
        (hu two (s.cursor - 1) 2 ht), h.written.of⟩
      refine Written.cont (Holding.forget (puts_holding hS hQ ?_ _ _))
      split
      · exact goto_holding hS hQ h1
      · exact goto_holding hS hQ h1

theorem backwardWord_written (h : Holding P E o Q s) : Wp Any (cmdBackwardWord E s) (fun p => Written P E o Q p.1) := by
  unfold cmdBackwardWord
  refine Wp.seq Wp.any fun _ _ => ?_
  refine Written.cont (repaint_written hS hQ ?_)
  split
  · exact h.of
  · exact h.of

theorem forwardWord_written (h : Holding P E o Q s) : Wp Any (cmdForwardWord E s) (fun p => Written P E o Q p.1) := by
  unfold cmdForwardWord
  refine Wp.seq Wp.any fun _ _ => ?_
  refine Wp.seq Wp.any fun _ _ => ?_
  split
  · exact Wp.seq (puts_holding hS hQ h _ _) fun s1 h1 => h1.written.of
  · exact Written.cont (repaint_written hS hQ (h.of))

theorem undo_written (h : Holding P E o Q s) : Wp Any (cmdUndo E s) (fun p => Written P E o Q p.1) := by
  unfold cmdUndo
  cases hu : s.undoes with
  | nil => exact h.written.emit hQ.bell
  | cons u rest =>
    dsimp only
    have hrest : ∀ x ∈ rest, Over P x.text := fun x hx => h.kept.texts.undoes x (by show x ∈ s.undoes; rw [hu]; simp [hx])
    have hul : Over P u.text := h.kept.texts.undoes u (by show u ∈ s.undoes; rw [hu]; simp)
    have h0 : Holding P E o Q (gotoHead { s with undoes := rest }) := by
      have h1 : Holding P E o Q { s with undoes := rest } := ⟨h.kept.pick (cs := s.buf) (fun x hx => hx) hrest, h.written.of⟩
      exact goto_holding hS hQ h1
    have last : ∀ b1 : List Cell, (∀ x ∈ b1, x ∈ s.buf) → Wp Any (do
        let s2 ← (if u.text ≠ [] then do
            let cells := mojis2cells (stringToMoji E.cfg u.text)
            let b2 ← bufInsert { gotoHead { s with undoes := rest } with buf := b1 } u.pos cells
            pure { gotoHead { s with undoes := rest } with buf := b2, cursor := u.pos + cells.length }
          else pure { gotoHead { s with undoes := rest } with buf := b1, cursor := u.pos } : M St)
        let s2 ← repaint E (resetViewStart E s2)
        pure (s2, Result.cont)) (fun p => Written P E o Q p.1) := by
      intro b1 hb1
      have h1 : Holding P E o Q { gotoHead { s with undoes := rest } with buf := b1 } :=
        ⟨h0.kept.pick (u := rest) hb1 hrest, h0.written.of⟩
      have fin : ∀ s2, Holding P E o Q s2 → Wp Any (do
          let s2 ← repaint E (resetViewStart E s2)
          pure (s2, Result.cont)) (fun p => Written P E o Q p.1) :=
        fun s2 h2 => Written.cont (repaint_written hS hQ (h2.of))
      split
      · refine Wp.seq (P := Holding P E o Q) ?_ fin
        refine Wp.bind (Wp.any.mono fun b2 hb2 _ => ?_)
        have hi := insertString_of hb2 (E := E)
        have h2 := (insertString_holding hS hQ h1 u.pos hul).ok hi
        obtain ⟨⟨t⟩, h5⟩ := h2
        exact Wp.pure ⟨⟨⟨t.built, t.line, t.suffix, hrest, t.pending, t.whole, t.modHist, t.clip⟩⟩, h5.of⟩
      · exact Wp.seq (P := Holding P E o Q) (h1.of) fin
    split
    · refine Wp.bind (Wp.any.mono fun b1 hb1 _ => last b1 ?_)
      unfold bufDelete at hb1
      split at hb1
      · rename_i hl
        cases hb1
        intro x hx
        rw [sliceDelete_eq _ _ _ (by have := hl.1; have := hl.2; unfold St.len at *; omega)] at hx
        rcases List.mem_append.mp hx with hx | hx
        · exact List.mem_of_mem_take hx
        · exact List.mem_of_mem_drop hx
      · cases hb1
    · exact last _ fun x hx => hx

theorem killed_holding (h : Holding P E o Q s) {p : St × Result} (hp : cmdKillWholeLine s = .ok p) : Holding P E o Q p.1 := by
  refine ⟨h.kept.killed hp, ?_⟩
  unfold cmdKillWholeLine at hp
  cases pure_ok.mp hp
  have h1 : Holding P E o Q (gotoHead s) := goto_holding hS hQ h
  exact h1.written.emit hQ.erase

theorem showHistory_written (h : Holding P E o Q s) : Wp Any (showHistory E s) (fun p => Written P E o Q p.1) := by
  unfold showHistory
  refine Wp.bind (Wp.any.mono fun p hp _ => ?_)
  have h1 := killed_holding hS hQ h hp
  obtain ⟨s1, n⟩ := p
  dsimp only at h1 ⊢
  refine Wp.bind (Wp.any.mono fun t ht _ => ?_)
  have hto : Over P t := by
    unfold getHistory at ht
    split at ht
    · rename_i hx; cases ht; exact h1.kept.texts.modHist _ _ hx
    · split at ht
      · cases ht; exact over_nil
      · exact hS.history _ ((index_here (s := s1)).ok ht)
  split
  · refine Wp.seq (insertString_holding hS hQ h1 _ hto) fun p h2 => ?_
    obtain ⟨s2, n⟩ := p
    dsimp only at h2 ⊢
    exact Wp.seq (endOfLine_written hS hQ (h2.of)) fun p h3 => h3
  · exact h1.written

theorem saveModified_holding (h : Holding P E o Q s) : Wp Any (saveModifiedHistory E s) (Holding P E o Q) := by
  refine Holding.both (saveModified_kept hS h.kept) ?_
  unfold saveModifiedHistory
  dsimp only
  have last : ∀ b : Bool, Wp Any (if b = true then pure s else
      pure { s with modHist := fun i => if i = s.histPtr then some s.text else s.modHist i } : M St)
      (Written P E o Q) := by
    intro b
    cases b
    · exact h.written.of
    · exact h.written
  split
  · exact Wp.seq (P := fun _ => True) (Wp.seq Wp.any fun _ _ => trivial) fun b _ => last b
  · exact last false

theorem getKey_holding {k : Option Bytes} {s' : St} (h : Holding P E o Q s) (hg : getKey s = (k, s')) : Holding P E o Q s' := by
  obtain ⟨rest, e⟩ := getKey_state hg
  rw [e]
  exact h.emit hQ.await

theorem quotedInsert_written (h : Holding P E o Q s) (hk : ∀ k, .key k ∈ s.input → Ed.Good P E.logic k) :
    Wp Any (cmdQuotedInsert E s) (fun p => Written P E o Q p.1) := by
  unfold cmdQuotedInsert
  dsimp only
  generalize hg : getKey (s.emit .cursorOn) = g
  obtain ⟨k, s1⟩ := g
  have h1 : Holding P E o Q s1 := getKey_holding hS hQ (s := s.emit .cursorOn) (h.emit hQ.on) hg
  cases k with
  | none => exact h1.written.emit hQ.off
  | some k =>
    dsimp only
    have : Ed.Good P E.logic k := by
      refine hk k ?_
      unfold getKey at hg
      dsimp only at hg
      split at hg
      · rename_i hp
        cases hg
        exact popKey_mem hp
      · cases hg
      · cases hg
    exact Wp.seq (selfInsert_written hS hQ h1 this) fun p h2 => Wp.pure (h2.emit hQ.off)

/-! ## Searching -/

theorem isearchLoop_written (hh : ∀ r ∈ searchHead, P r) (n : Nat) (it : ISt) (s : St) (h : Holding P E o Q s)
    (hi : ∀ k, .key k ∈ s.input → isControlRune (decodeRune k).1 = true ∨ P (decodeRune k).1)
    (hv : ValidUtf8 it.search) (h1 : Over P it.search) (h2 : Over P it.found) :
    Wp Any (isearchLoop E n it s) (fun p => Written P E o Q p.1) := by
  induction n generalizing it s with
  | zero => trivial
  | succ n ih =>
    unfold isearchLoop
    rw [drawLoop_eq]
    refine Wp.bind (Wp.any.mono fun s1 hs1 _ => ?_)
    have hin1 : s1.input = s.input := by obtain ⟨l, e⟩ := suffixLoop_glyphs _ _ hs1; rw [e]
    have ht1 : Holding P E o Q s1 := by
      obtain ⟨l, e, hl⟩ := suffixLoop_mem _ _ hs1
      refine ⟨by rw [e]; exact h.kept.of, h.written.glyphs hQ (fun m hm => ?_) (by rw [e]) (by rw [e])⟩
      exact mojis_built (searchDraw_kept hh hv h1 h2) hS.joined (hl m hm)
    dsimp only
    generalize hg : getKey ((eraseline s1).emit .cursorOn) = g
    obtain ⟨ok, s2⟩ := g
    have ht2 : Holding P E o Q s2 := by
      have ha : Holding P E o Q (eraseline s1) := ht1.emit hQ.erase
      exact getKey_holding hS hQ (s := (eraseline s1).emit .cursorOn) (ha.emit hQ.on) hg
    cases ok with
    | none => exact ht2.written
    | some key =>
      dsimp only
      have hk : .key key ∈ s.input ∧ ∀ k, .key k ∈ s2.input → .key k ∈ s.input := by
        unfold getKey at hg
        dsimp only at hg
        split at hg
        · rename_i hp
          have hp : popKey s1.input = _ := hp
          rw [hin1] at hp
          cases hg
          exact ⟨popKey_mem hp, fun k hk => (popKey_sublist hp).subset hk⟩
        · cases hg
        · cases hg
      have ht3 : Holding P E o Q (gotoHead (s2.emit .cursorOff)) := by
        have ha : Holding P E o Q (s2.emit .cursorOff) := ht2.emit hQ.off
        exact goto_holding hS hQ ha
      have hi3 : ∀ k, .key k ∈ (gotoHead (s2.emit .cursorOff)).input →
          isControlRune (decodeRune k).1 = true ∨ P (decodeRune k).1 := fun k hx => hi k (hk.2 k hx)
      generalize gotoHead (s2.emit .cursorOff) = s3 at *
      split
      · obtain ⟨a, b⟩ := searchChop_kept h1
        refine ih _ _ ht3 hi3 ?_ ?_ (searchUpdate_kept hS _ _).1
        · rw [(searchUpdate_kept hS _ _).2]; exact b
        · rw [(searchUpdate_kept hS _ _).2]; exact a
      · split
        · have hkk : Holding P E o Q { s3 with
              viewStart := 0
              undoes := ⟨0, 0, s3.text⟩ :: s3.undoes
              buf := []
              cursor := 0 } := by
            have := ht3.kept.pick (cs := []) (u := { pos := 0, del := 0, text := s3.text } :: s3.undoes)
              (fun x hx => (by cases hx)) (fun x hx => by
                rcases List.mem_cons.mp hx with rfl | hx
                · exact ht3.kept.cut fun x hx => hx
                · exact ht3.kept.texts.undoes x hx)
            exact ⟨this.of, ht3.written.of⟩
          exact Written.cont (replaceAndRepaint_written hS hQ hkk _ h2)
        · split
          · refine Wp.seq Wp.any fun p _ => ?_
            refine Wp.seq (puts_holding hS hQ ht3 _ _) fun s4 h4 => ?_
            have ha : Holding P E o Q (eraseline s4) := h4.emit hQ.erase
            exact Written.cont (Holding.forget (puts_holding hS hQ (goto_holding hS hQ ha) _ _))
          · split
            · refine Wp.bind (Wp.any.mono fun it' hit _ => ?_)
              obtain ⟨o, e⟩ := (searchPrev_kept hS h2 _ _).ok hit
              exact ih _ _ ht3 hi3 (e ▸ hv) (e ▸ h1) o
            · split
              · refine Wp.bind (Wp.any.mono fun it' hit _ => ?_)
                obtain ⟨o, e⟩ := (searchNext_kept hS h2 _ _).ok hit
                exact ih _ _ ht3 hi3 (e ▸ hv) (e ▸ h1) o
              · split
                · exact ih _ _ ht3 hi3 hv h1 h2
                · rename_i hctl
                  have hp := (hi key hk.1).resolve_left hctl
                  refine ih _ _ ht3 hi3 ?_ ?_ (searchUpdate_kept hS _ _).1
                  · rw [(searchUpdate_kept hS _ _).2]
                    exact ValidUtf8.append hv (validUtf8_encodeRune _)
                  · rw [(searchUpdate_kept hS _ _).2]
                    refine (over_append hv).mpr ⟨h1, ?_⟩
                    have := runesOf_encodeRunes (rs := [(decodeRune key).1]) (by simp [decode_isScalar])
                    unfold Over
                    rw [show encodeRune (decodeRune key).1 = encodeRunes [(decodeRune key).1] by simp [encodeRunes], this]
                    simpa using hp

/-! ## Commands -/

theorem call_written {k : Cmd} (hb : k.builtin = true) (ha : Ed.Allowed P E.logic s.ed k)
    (hi : k = .isearchBackward → SearchOver P s.input) (hbox : ∀ K f l, k = .completion K → K.box = some f → Q (.lit (f l)))
    (h : Holding P E o Q s) :
    Wp Any (Cmd.call E k s) (fun p => Written P E o Q p.1) := by
  cases k with
  | custom f => cases hb
  | acceptLine => exact h.written
  | interrupt => exact h.written.of
  | beginningOfLine => exact Written.cont (repaint_written hS hQ (h.of))
  | backwardChar =>
    simp only [Cmd.call, cmdBackwardChar]
    split
    · exact h.written
    · exact Written.cont (repaint_written hS hQ (h.of))
  | endOfLine => exact endOfLine_written hS hQ h
  | forwardChar => exact forwardChar_written hS hQ h
  | backwardDeleteChar => exact (backspace_holding hS hQ h).mono fun _ _ h => h.written
  | deleteChar => exact deleteChar_written hS hQ h
  | deleteOrAbort =>
    simp only [Cmd.call, cmdDeleteOrAbort]
    split
    · exact deleteChar_written hS hQ h
    · exact h.written
  | killLine => exact killLine_written hS hQ h
  | killWholeLine => exact Wp.of_ok fun p hp => (killed_holding hS hQ h hp).written
  | unixWordRubout => exact wordRubout_written hS hQ h
  | unixLineDiscard => exact lineDiscard_written hS hQ h
  | clearScreen => exact Written.cont (repaintAll_written hS hQ (h.emit hQ.clear))
  | repaintOnNewline => exact Written.cont (repaintAll_written hS hQ (h.emit hQ.lf))
  | quotedInsert => exact quotedInsert_written hS hQ h (ha.quoted rfl)
  | yank =>
    simp only [Cmd.call, cmdYank]
    cases hx : s.clip with
    | none => exact h.written
    | some t => exact Written.cont (replaceAndRepaint_written hS hQ h _ (over_trim (h.kept.texts.clip t hx)))
  | yankWithQuote =>
    simp only [Cmd.call, cmdYankWithQuote]
    cases hx : s.clip with
    | none => exact h.written
    | some t =>
      exact Written.cont (replaceAndRepaint_written hS hQ h _ (over_quote (h.kept.texts.clip t hx) (ha.quotes rfl)))
  | swapChar => exact swapChar_written hS hQ h
  | backwardWord => exact backwardWord_written hS hQ h
  | forwardWord => exact forwardWord_written hS hQ h
  | undo => exact undo_written hS hQ h
  | previousHistory =>
    simp only [Cmd.call, cmdPreviousHistory]
    split
    · exact h.written
    · split
      · exact h.written
      · refine Wp.seq (saveModified_holding hS hQ ?_) fun s1 h1 =>
          showHistory_written hS hQ (h1.of)
        split
        · exact h.of
        · exact h
  | nextHistory =>
    simp only [Cmd.call, cmdNextHistory]
    split
    · exact h.written
    · split
      · exact h.written
      · exact Wp.seq (saveModified_holding hS hQ h) fun s1 h1 => showHistory_written hS hQ (h1.of)
  | isearchBackward =>
    obtain ⟨hh, hk⟩ := hi rfl
    exact isearchLoop_written hS hQ hh _ _ _ (goto_holding hS hQ h) hk ValidUtf8.nil over_nil over_nil
  | selfInsert k => exact selfInsert_written hS hQ h (ha.self k rfl)
  | completion K =>
    show Wp _ (cmdComplete E K s) _
    by_cases hl : s.cursor ≤ s.len
    · rw [cmdComplete_eq hl]
      cases hx : completionOf K.uni K.completer K.postfix_ s.before with
      | crash => trivial
      | nothing => exact h.written
      | bell l =>
        unfold Outcome.call
        cases hf : K.box with
        | none => exact h.written.emit hQ.bell
        | some f =>
          dsimp only
          split
          · exact h.written.emit hQ.bell
          · have h1 : Holding P E o Q ((s.emit (.lit [0x07])).emit (.lit [0x0A])) :=
              Holding.emit (s := s.emit (.lit [0x07])) (h.emit hQ.bell) hQ.lf
            exact Written.cont (repaintAll_written hS hQ (h1.emit (hbox K f l rfl hf)))
      | insert pos t => exact Written.cont (replaceAndRepaint_written hS hQ h _ (ha.completion K rfl _ _ _ hx))
    · rw [cmdComplete_beyond hl]
      trivial

end
/-! ## Sessions -/

variable {P : Nat → Prop} {E : Env} {w : World} {s : St} {Q : Tok → Prop}

theorem promptSt_kept (hs : Sources P E w) : Kept P E (promptSt E w) := by
  have h0 : ∀ s0 : St, s0.line = [] → s0.suffix = none → s0.undoes = [] → s0.pending = [] → s0.modHist = (fun _ => none) →
      s0.clip = w.clip → Kept P E s0 := by
    intro s0 e1 e2 e3 e4 e5 e6
    refine ⟨⟨?_, ?_, ?_, ?_, ?_, ?_, ?_, ?_⟩⟩
    · show Ed.AllBuilt _ s0.line; rw [e1]; intro m hm; cases hm
    · show OverL P s0.line; rw [e1]; intro m hm; cases hm
    · show Over P (lineText (s0.suffix.getD [])); rw [e2]; exact over_nil
    · show ∀ u ∈ s0.undoes, Over P u.text; rw [e3]; intro u hu; cases hu
    · show Over P s0.pending; rw [e4]; exact over_nil
    · show ValidUtf8 s0.pending; rw [e4]; exact ValidUtf8.nil
    · show ∀ i t, s0.modHist i = some t → Over P t; rw [e5]; intro i t ht; cases ht
    · show ∀ t, s0.clip = some t → Over P t; rw [e6]; exact hs.clip
  unfold promptSt callPromptWriter
  dsimp only
  cases E.prompt <;> dsimp only <;> split <;> (try split) <;> exact h0 _ rfl rfl rfl rfl rfl rfl

theorem start_written (hs : Sources P E w) (hQ : Permits P E Q) : Wp Any (startSt E w) (Written P E w.out Q) := by
  have hS := hs.src
  have hn : Holding P E w.out Q (promptSt E w) := by
    refine ⟨promptSt_kept hs, ?_⟩
    have hp := hQ.prompt
    unfold PromptText at hp
    have h1 : ∀ s0 : St, Written P E w.out Q s0 → Written P E w.out Q (callPromptWriter E s0).2 := by
      intro s0 h0
      unfold callPromptWriter
      cases hx : E.prompt with
      | none => rw [hx] at hp; exact h0.emit (hp _ (Or.inl rfl))
      | some p => rw [hx] at hp; exact h0.emit (hp _ ⟨s0.promptN, Or.inl rfl⟩)
    have h2 : ∀ s0 : St, s0.out = w.out → s0.suffix = none → Written P E w.out Q (callPromptWriter E s0).2 :=
      fun s0 e1 e2 => h1 s0 ⟨⟨[], by simp [e1], by simp⟩, fun m hm => by unfold St.suffixList at hm; rw [e2] at hm; cases hm⟩
    unfold promptSt
    dsimp only
    cases hpe : E.promptErr with
    | some e =>
      refine Written.emit (s := (callPromptWriter E _).2) (t := .lit (e ++ [0x0A, 0x24, 0x20])) ?_ (hQ.promptErr e hpe) rfl rfl
      exact h2 _ rfl rfl
    | none =>
      dsimp only
      split
      · refine Written.emit (t := .lit [0x0A]) ?_ hQ.lf rfl rfl
        exact h2 _ rfl rfl
      · refine Written.of (s := (callPromptWriter E _).2) ?_ rfl rfl
        exact h2 _ rfl rfl
  unfold startSt
  refine Wp.seq (insertString_holding hS hQ hn _ hs.default) fun p h1 => ?_
  obtain ⟨s1, n⟩ := p
  dsimp only at h1 ⊢
  refine Wp.seq (P := Written P E w.out Q) ?_ fun s2 h2 => Wp.pure (h2.emit hQ.on)
  unfold repaintAfterPrompt
  refine repaint_written hS hQ ?_
  have : Holding P E w.out Q (if s1.cursor > s1.len then { s1 with cursor := s1.len } else s1) := by
    split
    · exact h1.of
    · exact h1
  exact this.of

/-- Searching is done only in characters from `P`. -/
def Searching (P : Nat → Prop) (E : Env) (w : World) : Prop :=
  ∀ q, .key q ∈ w.input → lookupCommand E q = .isearchBackward → SearchOver P w.input

theorem finish_written (hS : Ed.Src P E.logic) (hQ : Allows P E Q) (rc : Result) {o : List Tok} (h : Holding P E o Q s) :
    Wp Any (finish E s rc) (fun p => Written P E o Q p.1) := by
  unfold finish
  have h1 : Wp Any (match s.suffix with
      | some _ => repaintNoSuffix E { s with suffix := none }
      | none => pure s : M St) (Written P E o Q) := by
    cases hx : s.suffix with
    | none => exact Wp.pure h.written
    | some l =>
      refine Holding.forget (repaintNoSuffix_holding hS hQ.toPermits ⟨⟨?_⟩, h.written.out, fun m hm => by cases hm⟩)
      obtain ⟨t⟩ := h.kept
      exact ⟨t.built, t.line, over_nil, t.undoes, t.pending, t.whole, t.modHist, t.clip⟩
  refine Wp.seq h1 fun s1 h1 => ?_
  dsimp only
  have fin : ∀ s2 : St, Written P E o Q s2 → Written P E o Q (deferred (s2.emit .flush)) := by
    intro s2 h2
    unfold deferred
    have h3 : Written P E o Q (s2.emit .flush) := h2.emit hQ.flush
    have h4 : Written P E o Q ((s2.emit .flush).emit .cursorOn) := h3.emit hQ.on
    exact h4.emit hQ.flush
  cases hf : E.lineFeed with
  | none => exact fin _ (h1.emit hQ.lf)
  | some f => exact fin _ (h1.emit (hQ.lineFeed f rc hf))

theorem step_written (hb : BuiltinKeys E) (hs : Sources P E w) (hx : Searching P E w) (hQ : Permits P E Q)
    (h : Reachable E w s) (ih : Written P E w.out Q s) :
    Wp Any (step E s) (fun p => Allows P E Q ∨ p.2 = none → Written P E w.out Q p.1) := by
  have hS := hs.src
  have hin := reachable_input hb h
  have hn : Holding P E w.out Q s := ⟨⟨reachable_from hb hs h⟩, ih⟩
  have fin : ∀ s' : St, Written P E w.out Q s' → Written P E w.out Q (deferred s') := by
    intro s' h'
    have h4 : Written P E w.out Q (s'.emit .cursorOn) := h'.emit hQ.on
    exact h4.emit hQ.flush
  unfold step
  cases hi : s.input with
  | nil => exact fun _ => fin _ (ih.emit hQ.await)
  | cons ev rest =>
    cases ev with
    | err x => exact fun _ => fin _ (ih.emit hQ.await)
    | resize n =>
      dsimp only
      refine Wp.seq (P := Written P E w.out Q) ?_ fun s1 h1 _ => h1
      unfold onResize
      exact repaintLastLine_written hS hQ hn.of
    | key k =>
      dsimp only
      unfold execCmd
      have hk : .key k ∈ w.input := hin.subset (by rw [hi]; simp)
      have hsub : ∀ ev, ev ∈ rest → ev ∈ w.input := fun ev hev => hin.subset (by rw [hi]; exact List.mem_cons_of_mem _ hev)
      have ha := hs.allowed (e := (({ s.emit .await with input := rest } : St).emit .cursorOff).ed) hk hsub
      have hn1 : Holding P E w.out Q ({ s.emit .await with input := rest } : St) := hn.emit hQ.await
      have hbk := BuiltinKeys.builtin hb k
      refine Wp.bind ((call_written hS hQ hbk ha
        (fun e => ⟨(hx k hk e).1, fun q hq => (hx k hk e).2 q (hsub _ hq)⟩)
        (fun K f l e hf => hQ.box k K f l e hf) (hn1.emit hQ.off)).mono fun p hp h2 => ?_)
      obtain ⟨s1, rc⟩ := p
      have h3 : Written P E w.out Q (s1.emit .cursorOn) := h2.emit hQ.on
      have hk1 : Kept P E (s1.emit .cursorOn) := by
        have hc := Ed.From.call hS ha (hn1.emit (t := .cursorOff) hQ.off).kept.texts
        rcases (call_ed hbk hp).1 with he | ⟨-, he⟩
        · have he : s1.ed = _ := he
          exact Kept.of (s := s1) ⟨he ▸ hc⟩
        · have he : s1.ed = _ := he
          exact Kept.of (s := s1) ⟨he ▸ Ed.From.predict hS hc⟩
      cases rc
      · exact Wp.pure fun _ => h3
      all_goals
        refine Wp.bind (Wp.of_ok fun p hp ha => ?_)
        obtain ha | ha := ha
        · exact (finish_written hS ha _ ⟨hk1, h3⟩).ok hp
        · cases ha

theorem session_written (hb : BuiltinKeys E) (hs : Sources P E w) (hx : Searching P E w) (hQ : Permits P E Q)
    (h : Reachable E w s) : Written P E w.out Q s := by
  induction h with
  | start h => exact (start_written hs hQ).ok h
  | @step s s' h hst ih => exact (step_written hb hs hx hQ h ih).ok hst (Or.inr rfl)

theorem result_written (hb : BuiltinKeys E) (hs : Sources P E w) (hx : Searching P E w) (hQ : Allows P E Q)
    {p : St × RLRes} (h : readLine E w = .ok p) : Written P E w.out Q p.1 := by
  obtain ⟨s, hr, hst⟩ := readLine_reachable h
  exact (step_written hb hs hx hQ.toPermits hr (session_written hb hs hx hQ.toPermits hr)).ok hst (Or.inl hQ)

end Readline
