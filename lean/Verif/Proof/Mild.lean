import Verif.Proof.Plain
import Verif.Proof.SafeCall
/-!
# Panics of ordinary sessions

In an ordinary session no panic comes from a tab, and whenever a panic occurs the line fits the
screen.  Together with `Proof/SafeCall.lean` this excludes panics.
-/
set_option linter.unusedSectionVars false

namespace Readline
open Spec

/-- The panic is not one of a tab, and there was room on the screen. -/
def Mild (E : Env) (p : Panic) : Prop := p.kind ≠ .tabPos ∧ ¬ p.st.narrow E.cfg

/-- All texts are over `P`, and there is room behind the prompt. -/
structure Easy (P : Nat → Prop) (E : Env) (c : Int) (s : St) : Prop where
  texts : Ed.From P E.logic s.ed
  top : s.topColumn = c
  room : c + 5 < s.termWidth

/-- The panic occurs in the state `s` and does not come from a tab. -/
def Here (s : St) (p : Panic) : Prop := p.kind ≠ .tabPos ∧ p.st = s

theorem slice_here {s : St} {l : List α} {lo hi : Int} : Wp (Here s) (slice s l lo hi) (fun r => ∀ a ∈ r, a ∈ l) := by
  unfold slice
  split
  · split
    · exact fun a ha => List.mem_of_mem_take (List.mem_of_mem_drop ha)
    · exact ⟨by simp, rfl⟩
  · exact ⟨by simp, rfl⟩

theorem index_here {s : St} {l : List α} {i : Int} : Wp (Here s) (index s l i) (fun a => a ∈ l) := by
  unfold index
  split
  · exact ⟨by simp, rfl⟩
  · cases h : l[i.toNat]? with
    | none => exact ⟨by simp, rfl⟩
    | some a => exact List.mem_of_getElem? h

theorem widthBetween_here {E : Env} {s : St} {lo hi : Int} : Wp (Here s) (widthBetween E s lo hi) (fun _ => True) :=
  Wp.bind (slice_here.mono fun _ _ _ => trivial)

theorem subString_here {s : St} {lo hi : Int} :
    Wp (Here s) (subString s lo hi) (fun t => ∃ cs, t = cell2string cs ∧ ∀ c ∈ cs, c ∈ s.buf) :=
  Wp.bind (slice_here.mono fun cs _ h => ⟨cs, rfl, h⟩)

theorem checkCursor_here {s : St} : Wp (Here s) (checkCursor s) (fun _ => True) := by
  unfold checkCursor
  split
  · split
    · trivial
    · exact ⟨by simp, rfl⟩
  · exact ⟨by simp, rfl⟩

theorem getView2_here {E : Env} {s : St} : Wp (Here s) (getView2 E s) (fun _ => True) := by
  unfold getView2 getView
  refine Wp.bind (Wp.mono (P := fun _ => True) ?_ fun p _ _ => ?_)
  · exact Wp.bind (slice_here.mono fun _ _ _ => trivial)
  · exact Wp.bind (slice_here.mono fun _ _ _ => trivial)

theorem currentWordTop_here {E : Env} {s : St} : Wp (Here s) (currentWordTop E s) (fun _ => True) :=
  Wp.bind (slice_here.mono fun _ _ _ => trivial)

theorem bufInsert_here {s : St} {pos : Int} {cs : List Cell} : Wp (Here s) (bufInsert s pos cs) (fun _ => True) := by
  unfold bufInsert
  split
  · trivial
  · exact ⟨by simp, rfl⟩

theorem bufDelete_here {s : St} {pos : Int} {n : Nat} : Wp (Here s) (bufDelete s pos n) (fun _ => True) := by
  unfold bufDelete
  split
  · trivial
  · exact ⟨by simp, rfl⟩

theorem histAt_here {E : Env} {s : St} {i : Int} : Wp (Here s) (histAt E s i) (fun t => t ∈ E.history) := index_here

theorem getHistory_here {E : Env} {s : St} : Wp (Here s) (getHistory E s) (fun _ => True) := by
  unfold getHistory
  split
  · trivial
  · split
    · trivial
    · exact histAt_here.mono fun _ _ _ => trivial

theorem isearchPrev_here {E : Env} {s : St} {it : ISt} (n : Nat) (i : Int) :
    Wp (Here s) (isearchPrev E s it n i) (fun _ => True) := by
  induction n generalizing i with
  | zero => exact ⟨by simp, rfl⟩
  | succ n ih =>
    unfold isearchPrev
    dsimp only
    generalize (if i < 0 then E.histLen - 1 else i) = j
    split
    · trivial
    · refine Wp.bind (histAt_here.mono fun _ _ _ => ?_)
      split
      · trivial
      · exact ih _

theorem isearchNext_here {E : Env} {s : St} {it : ISt} (n : Nat) (i : Int) :
    Wp (Here s) (isearchNext E s it n i) (fun _ => True) := by
  induction n generalizing i with
  | zero => exact ⟨by simp, rfl⟩
  | succ n ih =>
    unfold isearchNext
    split
    · trivial
    · split
      · trivial
      · refine Wp.bind (histAt_here.mono fun _ _ _ => ?_)
        split
        · trivial
        · exact ih _

/-- The errors and the results of a computation, shown separately. -/
theorem Wp.both {Q : Panic → Prop} {x : M α} {R : α → Prop} (h : Wp Q x (fun _ => True))
    (hr : ∀ a, x = .ok a → R a) : Wp Q x R := h.mono fun a ha _ => hr a ha

theorem printMoji_mild {Q : Panic → Prop} {s : St} {m : Moji} (h : 9 ∉ m.write) :
    Wp Q (printMoji s m) (fun s' => s' = s.emit (.glyph m)) := by
  unfold printMoji
  split
  · rename_i hp; exact absurd (printPanics_nine hp) h
  · rfl

theorem putsLoop_mild {Q : Panic → Prop} (cs : List Cell) (c : Color) (s : St) (h : ∀ x ∈ cs, 9 ∉ x.moji.write) :
    Wp Q (putsLoop cs c s) (fun _ => True) := by
  induction cs generalizing c s with
  | nil => trivial
  | cons x xs ih =>
    unfold putsLoop
    exact Wp.bind ((printMoji_mild (h x (by simp))).mono fun _ _ _ => ih _ _ fun y hy => h y (by simp [hy]))

theorem suffixLoop_mild {Q : Panic → Prop} {C : Cfg} {vw : Int} (ms : List Moji) (w : Int) (s : St)
    (h : ∀ m ∈ ms, 9 ∉ m.write) : Wp Q (suffixLoop C vw ms w s) (fun _ => True) := by
  induction ms generalizing w s with
  | nil => trivial
  | cons m ms ih =>
    unfold suffixLoop
    dsimp only
    split
    · trivial
    · exact Wp.bind ((printMoji_mild (h m (by simp))).mono fun _ _ _ => ih _ _ fun y hy => h y (by simp [hy]))

section
variable {P : Nat → Prop} {E : Env} {c : Int} {s : St}

theorem over_nine {t : Bytes} (hP : ∀ r, P r → Plain E.cfg r) (h : Over P t) : 9 ∉ t := by
  intro hm
  obtain ⟨a, b, rfl⟩ := List.append_of_mem hm
  exact (hP _ ((over_stop (by decide)).mp h).2.1).noTab rfl

theorem Easy.unit (hP : ∀ r, P r → Plain E.cfg r) (h : Easy P E c s) {x : Cell} (hx : x ∈ s.buf) :
    ∃ r, P r ∧ x.moji = rune2moji E.cfg r 0 := by
  have hl : x.moji.norm ∈ s.ed.line := List.mem_map.mpr ⟨x, hx, rfl⟩
  obtain ⟨r, hr, e⟩ := built_plain (h.texts.built _ hl) hP (h.texts.line _ hl)
  have e : x.moji.norm = rune2moji E.cfg r 0 := e
  refine ⟨r, hr, ?_⟩
  rw [← e, single_norm]
  rw [e]
  exact (plain_columns (hP r hr)).1

theorem Easy.nine (hP : ∀ r, P r → Plain E.cfg r) (h : Easy P E c s) {x : Cell} (hx : x ∈ s.buf) : 9 ∉ x.moji.write := by
  have hl : x.moji.norm ∈ s.ed.line := List.mem_map.mpr ⟨x, hx, rfl⟩
  rw [← Moji.norm_write]
  exact over_nine hP (h.texts.line _ hl)

theorem Easy.wide (hP : ∀ r, P r → Plain E.cfg r) (h : Easy P E c s) : ¬ s.narrow E.cfg := by
  have hv : 2 < s.viewWidth := by have := h.room; have := h.top; unfold St.viewWidth; omega
  rintro (hn | ⟨x, hx, hn⟩)
  · omega
  · obtain ⟨r, hr, e⟩ := h.unit hP hx
    obtain ⟨-, h1, h2, h3⟩ := plain_columns (hP r hr)
    rw [e] at hn
    omega

/-- A computation that looks at the state. -/
theorem Easy.at (hP : ∀ r, P r → Plain E.cfg r) (h : Easy P E c s) {x : M α} {R : α → Prop} (hx : Wp (Here s) x R) :
    Wp (Mild E) x R :=
  hx.weaken fun _ hp => ⟨hp.1, hp.2 ▸ h.wide hP⟩

/-- A computation that looks at a state with the same line. -/
theorem Easy.at' {s' : St} (hP : ∀ r, P r → Plain E.cfg r) (h : Easy P E c s) {x : M α} {R : α → Prop}
    (hx : Wp (Here s') x R) (hn : s'.narrow E.cfg → s.narrow E.cfg := by exact id) : Wp (Mild E) x R :=
  hx.weaken fun _ hp => ⟨hp.1, fun h' => h.wide hP (hn (hp.2 ▸ h'))⟩

theorem Easy.same {s' : St} (h : Easy P E c s) (he : Same s s') : Easy P E c s' := by
  refine ⟨he.ed ▸ h.texts, ?_, ?_⟩ <;> obtain ⟨-, _, _, rfl⟩ := he
  · exact h.top
  · exact h.room

theorem Easy.of {s' : St} (h : Easy P E c s) (he : s'.line = s.line ∧ s'.suffix = s.suffix ∧ s'.undoes = s.undoes ∧
    s'.pending = s.pending ∧ s'.modHist = s.modHist ∧ s'.clip = s.clip ∧ s'.topColumn = s.topColumn ∧
    s'.termWidth = s.termWidth := by exact ⟨rfl, rfl, rfl, rfl, rfl, rfl, rfl, rfl⟩) : Easy P E c s' := by
  obtain ⟨h1, h2, h3, h4, h5, h6, h7, h8⟩ := he
  obtain ⟨t, top, room⟩ := h
  refine ⟨⟨?_, ?_, ?_, ?_, ?_, ?_, ?_, ?_⟩, h7 ▸ top, h8 ▸ room⟩
  · show Ed.AllBuilt _ s'.line; rw [h1]; exact t.built
  · show OverL P s'.line; rw [h1]; exact t.line
  · show Over P (lineText (s'.suffix.getD [])); rw [h2]; exact t.suffix
  · show ∀ u ∈ s'.undoes, Over P u.text; rw [h3]; exact t.undoes
  · show Over P s'.pending; rw [h4]; exact t.pending
  · show ValidUtf8 s'.pending; rw [h4]; exact t.whole
  · show ∀ i t, s'.modHist i = some t → Over P t; rw [h5]; exact t.modHist
  · show ∀ t, s'.clip = some t → Over P t; rw [h6]; exact t.clip

/-- The result of a command. -/
theorem Easy.next {s' : St} {e : Ed} (hc : ∀ n, promptWidth E n = c) (h : Easy P E c s) (hr : Roomy E s s') (he : s'.ed = e)
    (ht : Ed.From P E.logic e) : Easy P E c s' := by
  refine ⟨he ▸ ht, ?_, hr.1 ▸ h.room⟩
  rcases hr.2 with hr | ⟨n, hr⟩
  · rw [hr]; exact h.top
  · rw [hr]; exact hc n

/-! ## Drawing -/

theorem puts_mild (hP : ∀ r, P r → Plain E.cfg r) (h : Easy P E c s) (lo hi : Int) :
    Wp (Mild E) (puts E s lo hi) (Easy P E c) := by
  refine Wp.both ?_ fun s' hs' => h.same (puts_same hs').1
  unfold puts
  refine Wp.bind ((h.at hP slice_here).mono fun _ _ _ => ?_)
  refine Wp.bind (Wp.mono (P := fun s' => Same s s') ?_ fun s1 _ h1 => ?_)
  · have hs := @refreshColor_same E s
    unfold refreshColor at *
    split
    · rename_i hx
      obtain ⟨x, hx, hp⟩ := List.any_eq_true.mp hx
      exfalso
      apply h.nine hP hx
      apply printPanics_nine
      unfold Cell.refreshPanics at hp
      split at hp
      · cases hp
      · simp only [Bool.and_eq_true] at hp; exact hp.2
    · rename_i hx
      rw [if_neg hx] at hs
      exact hs rfl
  · have ht := h.same h1
    refine Wp.bind ((ht.at hP slice_here).mono fun cs _ hcs => ?_)
    exact Wp.bind ((putsLoop_mild cs _ s1 fun x hx => ht.nine hP (hcs x hx)).mono fun _ _ _ => trivial)

theorem suffix_nine (hP : ∀ r, P r → Plain E.cfg r) (h : Easy P E c s) {m : Moji} (hm : m ∈ s.visibleSuffix E) :
    9 ∉ m.write := by
  intro h9
  have hm : m ∈ s.suffixList := by
    unfold St.visibleSuffix at hm
    split at hm
    · cases hm
    · split at hm
      · cases hm
      · exact hm
  refine over_nine hP h.texts.suffix ?_
  exact List.mem_flatMap.mpr ⟨m, hm, h9⟩

theorem repaintNoSuffix_mild (hP : ∀ r, P r → Plain E.cfg r) (h : Easy P E c s) :
    Wp (Mild E) (repaintNoSuffix E s) (Easy P E c) := by
  refine Wp.both ?_ fun s' hs' => h.same (repaintNoSuffix_same hs').1
  unfold repaintNoSuffix
  refine Wp.bind ((h.at hP getView2_here).mono fun p _ _ => ?_)
  obtain ⟨n, w⟩ := p
  dsimp only
  refine Wp.bind ((puts_mild hP (h.of) _ _).mono fun s1 _ h1 => ?_)
  have last : ∀ s2, Easy P E c s2 →
      Wp (Mild E) (puts E (gotoHead (eraseline s2)) (gotoHead (eraseline s2)).viewStart
        (gotoHead (eraseline s2)).cursor) (fun _ => True) :=
    fun s2 h2 => (puts_mild hP (h2.of) _ _).mono fun _ _ _ => trivial
  split
  · refine Wp.bind (Wp.mono (P := Easy P E c) ?_ fun s2 _ h2 => last s2 h2)
    refine Wp.bind ((suffixLoop_mild _ _ _ fun m hm => suffix_nine (s := s1.emit (.lit E.predictColor.1)) hP (h1.of) hm).mono
      fun s2 h2 _ => ?_)
    obtain ⟨l, e⟩ := suffixLoop_glyphs _ _ h2
    refine Wp.pure ?_
    rw [e]
    exact h1.of
  · exact Wp.bind (Wp.pure (last _ h1))

theorem Easy.predict (hS : Ed.Src P E.logic) (h : Easy P E c s) : Easy P E c (updateSuffix E s) := by
  refine ⟨updateSuffix_ed E s ▸ h.texts.predict hS, ?_, ?_⟩
  · unfold updateSuffix; split
    · exact h.top
    · split <;> exact h.top
  · unfold updateSuffix; split
    · exact h.room
    · split <;> exact h.room

theorem repaint_mild (hS : Ed.Src P E.logic) (hP : ∀ r, P r → Plain E.cfg r) (h : Easy P E c s) :
    Wp (Mild E) (repaint E s) (Easy P E c) := repaintNoSuffix_mild hP (h.predict hS)

/-! ## Editing -/

theorem insertString_of {pos : Int} {t : Bytes} {b : List Cell}
    (h : bufInsert s pos (mojis2cells (stringToMoji E.cfg t)) = .ok b) :
    insertString E s pos t = .ok ({ s with buf := b, undoes := ⟨pos, (mojis2cells (stringToMoji E.cfg t)).length, []⟩ :: s.undoes },
      mojis2cells (stringToMoji E.cfg t)) := by
  unfold insertString insertCells
  dsimp only
  rw [h]
  rfl

theorem Easy.cut (h : Easy P E c s) {cs : List Cell} (hcs : ∀ x ∈ cs, x ∈ s.buf) : Over P (cell2string cs) := by
  rw [cell2string_eq]
  refine h.texts.cut fun m hm => ?_
  obtain ⟨x, hx, rfl⟩ := List.mem_map.mp hm
  exact List.mem_map.mpr ⟨x, hcs x hx, rfl⟩

theorem Easy.clipped (hS : Ed.Src P E.logic) (h : Easy P E c s) {t : Bytes} (ht : Over P t) :
    Easy P E c { s with clip := E.clipSet s.clip t } := ⟨h.texts.clipSet hS ht, h.top, h.room⟩

/-- Some cells of the line, in any order. -/
theorem Easy.pick (h : Easy P E c s) {cs : List Cell} {u : List Undo} (hcs : ∀ x ∈ cs, x ∈ s.buf)
    (hu : ∀ x ∈ u, Over P x.text) : Easy P E c { s with buf := cs, undoes := u } := by
  obtain ⟨t, h3, h4⟩ := h
  have hm : ∀ m ∈ cs.map (fun x : Cell => x.moji.norm), m ∈ s.ed.line := by
    intro m hm
    obtain ⟨x, hx, rfl⟩ := List.mem_map.mp hm
    exact List.mem_map.mpr ⟨x, hcs x hx, rfl⟩
  exact ⟨⟨fun m hx => t.built m (hm m hx), fun m hx => t.line m (hm m hx), t.suffix, hu, t.pending, t.whole, t.modHist,
    t.clip⟩, h3, h4⟩

theorem Easy.killed (h : Easy P E c s) {p : St × Result} (hp : cmdKillWholeLine s = .ok p) : Easy P E c p.1 := by
  unfold cmdKillWholeLine at hp
  cases pure_ok.mp hp
  have := h.pick (cs := []) (u := { pos := 0, del := 0, text := s.text } :: s.undoes) (fun x hx => (by cases hx))
    (fun x hx => by
      rcases List.mem_cons.mp hx with rfl | hx
      · exact h.cut fun x hx => hx
      · exact h.texts.undoes x hx)
  exact this.of

variable (hS : Ed.Src P E.logic) (hP : ∀ r, P r → Plain E.cfg r) (hc : ∀ n, promptWidth E n = c)
include hS hP hc

theorem insertString_mild (h : Easy P E c s) (pos : Int) {t : Bytes} (ht : Over P t) :
    Wp (Mild E) (insertString E s pos t) (fun p => Easy P E c p.1) := by
  refine Wp.both ?_ fun p hp => h.next hc ((insertString_r (Roomy.refl s) pos t).ok hp) (insertString_ok hp).2.1
    (h.texts.insert hS pos ht)
  unfold insertString insertCells
  refine Wp.bind (Wp.mono (P := fun _ => True) ?_ fun _ _ _ => trivial)
  exact Wp.bind ((h.at hP bufInsert_here).mono fun _ _ _ => trivial)

theorem deleteCells_mild (h : Easy P E c s) (pos n : Int) :
    Wp (Mild E) (deleteCells E s pos n) (fun p => Easy P E c p.1) := by
  refine Wp.both ?_ fun p hp => h.next hc ((deleteCells_r (Roomy.refl s) pos n).ok hp) (deleteCells_ok hp).1
    (h.texts.delete pos n)
  unfold deleteCells
  split
  · trivial
  · refine Wp.bind ((h.at hP slice_here).mono fun _ _ _ => ?_)
    dsimp only
    exact Wp.bind ((h.at' hP bufDelete_here).mono fun _ _ _ => trivial)

theorem replaceAndRepaint_mild (h : Easy P E c s) (pos : Int) {t : Bytes} (ht : Over P t) :
    Wp (Mild E) (replaceAndRepaint E s pos t) (Easy P E c) := by
  refine Wp.both ?_ fun s' hs' => h.next hc ((replaceAndRepaint_r (Roomy.refl s) pos t).ok hs') (replaceAndRepaint_ed hs')
    (h.texts.replace hS pos ht)
  unfold replaceAndRepaint
  refine Wp.bind ((deleteCells_mild hS hP hc h _ _).mono fun p _ h1 => ?_)
  obtain ⟨s1, n⟩ := p
  dsimp only
  refine Wp.bind ((insertString_mild hS hP hc h1 _ ht).mono fun p _ h2 => ?_)
  obtain ⟨s2, ins⟩ := p
  dsimp only
  refine (repaint_mild (c := c) hS hP ?_).mono fun _ _ _ => trivial
  rw [joinUndo_eq]
  obtain ⟨t, h3, h4⟩ := h2
  exact ⟨⟨t.built, t.line, t.suffix, Ed.joinUndoes_over t.undoes, t.pending, t.whole, t.modHist, t.clip⟩, h3, h4⟩

theorem repaintAll_mild (h : Easy P E c s) : Wp (Mild E) (repaintAll E s) (Easy P E c) := by
  unfold repaintAll
  dsimp only
  refine repaint_mild hS hP ?_
  have hp : Easy P E c (callPromptWriter E (s.emit .flush)).2 := by
    unfold callPromptWriter
    cases E.prompt with
    | none => exact h.of
    | some p => exact h.of
  exact ⟨hp.texts, by rw [callPromptWriter_cols]; exact hc _, hp.room⟩

theorem repaintLastLine_mild (h : Easy P E c s) : Wp (Mild E) (repaintLastLine E s) (Easy P E c) := by
  unfold repaintLastLine
  dsimp only
  cases E.prompt with
  | none => exact repaint_mild hS hP (h.of)
  | some p => exact repaint_mild hS hP (h.of)

theorem backspace_mild (h : Easy P E c s) : Wp (Mild E) (cmdBackwardDeleteChar E s) (fun p => Easy P E c p.1) := by
  refine Wp.both ?_ fun p hp => h.next hc ((cmdBackwardDeleteChar_r (Roomy.refl s)).ok hp) (backspace_ed hp).1
    (h.texts.backspace hS)
  unfold cmdBackwardDeleteChar
  split
  · refine Wp.bind ((deleteCells_mild (s := { s with cursor := s.cursor - 1 }) hS hP hc (h.of) _ _).mono fun p _ h1 => ?_)
    obtain ⟨s1, n⟩ := p
    dsimp only
    refine Wp.bind ((repaint_mild (c := c) hS hP ?_).mono fun _ _ _ => trivial)
    split
    · exact h1.of
    · exact h1
  · trivial

theorem deleteChar_mild (h : Easy P E c s) : Wp (Mild E) (cmdDeleteChar E s) (fun _ => True) := by
  unfold cmdDeleteChar
  refine Wp.bind ((deleteCells_mild hS hP hc h _ _).mono fun p _ h1 => ?_)
  exact Wp.bind ((repaint_mild (c := c) hS hP h1).mono fun _ _ _ => trivial)

theorem selfInsertTail_mild (h : Easy P E c s) {k : Bytes} (hk : Over P k) :
    Wp (Mild E) (selfInsertTail E s k) (fun _ => True) := by
  unfold selfInsertTail
  refine Wp.bind ((insertString_mild hS hP hc h _ hk).mono fun p _ h1 => ?_)
  obtain ⟨s1, n⟩ := p
  dsimp only
  refine Wp.bind ((h1.at hP widthBetween_here).mono fun _ _ _ => ?_)
  refine Wp.bind ((repaint_mild (c := c) hS hP ?_).mono fun _ _ _ => trivial)
  split
  · exact h1.of
  · exact h1.of

theorem selfInsert_mild (h : Easy P E c s) {k : Bytes} (hk : Ed.Good P E.logic k) :
    Wp (Mild E) (cmdSelfInsert E k s) (fun _ => True) := by
  have hunit : ∀ x ∈ s.buf, ValidUtf8 x.moji.write ∧ Over P x.moji.write := by
    intro x hx
    have hl : x.moji.norm ∈ s.ed.line := List.mem_map.mpr ⟨x, hx, rfl⟩
    rw [← Moji.norm_write]
    exact ⟨(h.texts.built _ hl).valid, h.texts.line _ hl⟩
  unfold cmdSelfInsert
  dsimp only
  split
  · rename_i hz
    rw [Bool.and_eq_true] at hz
    refine Wp.bind ((h.at hP index_here).mono fun x _ hx => ?_)
    obtain ⟨v, o⟩ := hunit x hx
    refine (backspace_mild (c := c) hS hP hc ?_).mono fun _ _ _ => trivial
    obtain ⟨t, h3, h4⟩ := h
    exact ⟨⟨t.built, t.line, t.suffix, t.undoes, (over_append v).mpr ⟨o, hk.over⟩, ValidUtf8.append v (hk.valid hz.1),
      t.modHist, t.clip⟩, h3, h4⟩
  · split
    · refine Wp.bind ((h.at hP index_here).mono fun x _ hx => ?_)
      obtain ⟨v, o⟩ := hunit x hx
      refine Wp.bind ((backspace_mild hS hP hc h).mono fun p _ h1 => ?_)
      exact selfInsertTail_mild hS hP hc h1 ((over_append v).mpr ⟨o, hk.over⟩)
    · split
      · refine selfInsertTail_mild (c := c) hS hP hc ?_ ((over_append h.texts.whole).mpr ⟨h.texts.pending, hk.over⟩)
        obtain ⟨t, h3, h4⟩ := h
        exact ⟨⟨t.built, t.line, t.suffix, t.undoes, over_nil, ValidUtf8.nil, t.modHist, t.clip⟩, h3, h4⟩
      · exact selfInsertTail_mild hS hP hc h hk.over

theorem endOfLine_mild (h : Easy P E c s) : Wp (Mild E) (cmdEndOfLine E s) (fun _ => True) := by
  unfold cmdEndOfLine
  refine Wp.bind ((h.at hP widthBetween_here).mono fun _ _ _ => ?_)
  split
  · exact Wp.bind ((puts_mild hP h _ _).mono fun s1 _ h1 => trivial)
  · refine Wp.bind ((h.at' hP index_here).mono fun _ _ _ => ?_)
    exact Wp.bind ((puts_mild (c := c) hP (h.of) _ _).mono fun s1 _ h1 => trivial)

theorem forwardChar_mild (h : Easy P E c s) : Wp (Mild E) (cmdForwardChar E s) (fun _ => True) := by
  unfold cmdForwardChar
  split
  · split
    · exact Wp.bind ((replaceAndRepaint_mild hS hP hc h _ h.texts.suffix).mono fun _ _ _ => trivial)
    · trivial
  · refine Wp.bind ((h.at hP widthBetween_here).mono fun _ _ _ => ?_)
    split
    · exact Wp.bind ((puts_mild hP h _ _).mono fun s1 _ h1 => trivial)
    · refine Wp.bind ((h.at' hP index_here).mono fun _ _ _ => ?_)
      refine Wp.bind ((h.at' hP index_here).mono fun _ _ _ => ?_)
      exact Wp.bind ((puts_mild (c := c) hP (h.of) _ _).mono fun s1 _ h1 => trivial)

theorem killLine_mild (h : Easy P E c s) : Wp (Mild E) (cmdKillLine E s) (fun _ => True) := by
  unfold cmdKillLine
  refine Wp.bind ((h.at hP subString_here).mono fun t _ _ => ?_)
  dsimp only
  refine Wp.bind ((h.at' hP slice_here).mono fun _ _ _ => ?_)
  exact Wp.bind ((h.at' hP slice_here).mono fun _ _ _ => trivial)

theorem wordRubout_mild (h : Easy P E c s) : Wp (Mild E) (cmdUnixWordRubout E s) (fun _ => True) := by
  unfold cmdUnixWordRubout
  dsimp only
  refine Wp.bind ((h.at hP checkCursor_here).mono fun _ _ _ => ?_)
  refine Wp.bind ((h.at' hP currentWordTop_here).mono fun new _ _ => ?_)
  refine Wp.bind ((h.at' hP subString_here).mono fun t _ ht => ?_)
  obtain ⟨cs, rfl, hcs⟩ := ht
  have h1 := h.clipped hS (h.cut hcs)
  refine Wp.bind ((deleteCells_mild (c := c) hS hP hc (h1.of) _ _).mono fun p _ h2 => ?_)
  refine Wp.bind ((repaint_mild (c := c) hS hP ?_).mono fun _ _ _ => trivial)
  split
  · exact h2.of
  · exact h2.of

theorem lineDiscard_mild (h : Easy P E c s) : Wp (Mild E) (cmdUnixLineDiscard E s) (fun _ => True) := by
  unfold cmdUnixLineDiscard
  refine Wp.bind ((h.at hP subString_here).mono fun t _ ht => ?_)
  obtain ⟨cs, rfl, hcs⟩ := ht
  have h1 := h.clipped hS (h.cut hcs)
  refine Wp.bind ((deleteCells_mild (c := c) hS hP hc (h1.of) _ _).mono fun p _ h2 => ?_)
  exact Wp.bind ((repaint_mild (c := c) hS hP (h2.of)).mono fun _ _ _ => trivial)

theorem swapChar_mild (h : Easy P E c s) : Wp (Mild E) (cmdSwapChar E s) (fun _ => True) := by
  have hu : ∀ (two : List Cell) (i : Int) (d : Nat), (∀ x ∈ two, x ∈ s.buf) →
      ∀ x ∈ ({ pos := i, del := d, text := cell2string two } :: s.undoes : List Undo), Over P x.text := by
    intro two i d ht x hx
    rcases List.mem_cons.mp hx with rfl | hx
    · exact h.cut ht
    · exact h.texts.undoes x hx
  unfold cmdSwapChar
  split
  · split
    · trivial
    · refine Wp.bind ((h.at hP slice_here).mono fun two _ ht => ?_)
      have h1 := h.pick (cs := swapAt s.buf (s.cursor - 2).toNat) (fun x hx => Ed.mem_swapAt hx)
        (hu two s.cursor 2 ht)
      exact Wp.bind ((puts_mild (c := c) hP (h1.of) _ _).mono fun _ _ _ => trivial)
  · split
    · trivial
    · refine Wp.bind ((h.at hP slice_here).mono fun two _ ht => ?_)
      dsimp only
      refine Wp.bind ((h.at' hP widthBetween_here).mono fun _ _ _ => ?_)
      have h1 := h.pick (cs := swapAt s.buf (s.cursor - 1).toNat) (fun x hx => Ed.mem_swapAt hx)
        (hu two (s.cursor - 1) 2 ht)
      refine Wp.bind ((puts_mild (c := c) hP ?_ _ _).mono fun _ _ _ => trivial)
      split
      · exact h1.of
      · exact h1.of

theorem backwardWord_mild (h : Easy P E c s) : Wp (Mild E) (cmdBackwardWord E s) (fun _ => True) := by
  unfold cmdBackwardWord
  refine Wp.bind ((h.at hP checkCursor_here).mono fun _ _ _ => ?_)
  refine Wp.bind ((repaint_mild (c := c) hS hP ?_).mono fun _ _ _ => trivial)
  split
  · exact h.of
  · exact h.of

theorem forwardWord_mild (h : Easy P E c s) : Wp (Mild E) (cmdForwardWord E s) (fun _ => True) := by
  unfold cmdForwardWord
  refine Wp.bind ((h.at hP checkCursor_here).mono fun _ _ _ => ?_)
  refine Wp.bind ((h.at hP widthBetween_here).mono fun _ _ _ => ?_)
  split
  · exact Wp.bind ((puts_mild hP h _ _).mono fun _ _ _ => trivial)
  · exact Wp.bind ((repaint_mild (c := c) hS hP (h.of)).mono fun _ _ _ => trivial)

theorem undo_mild (h : Easy P E c s) : Wp (Mild E) (cmdUndo E s) (fun _ => True) := by
  unfold cmdUndo
  cases hu : s.undoes with
  | nil => trivial
  | cons u rest =>
    dsimp only
    have hrest : ∀ x ∈ rest, Over P x.text := fun x hx => h.texts.undoes x (by show x ∈ s.undoes; rw [hu]; simp [hx])
    have hul : Over P u.text := h.texts.undoes u (by show u ∈ s.undoes; rw [hu]; simp)
    have h0 : Easy P E c (gotoHead { s with undoes := rest }) := by
      have := h.pick (cs := s.buf) (fun x hx => hx) hrest
      exact this.of
    have last : ∀ b1 : List Cell, (∀ x ∈ b1, x ∈ s.buf) → Wp (Mild E) (do
        let s2 ← (if u.text ≠ [] then do
            let cells := mojis2cells (stringToMoji E.cfg u.text)
            let b2 ← bufInsert { gotoHead { s with undoes := rest } with buf := b1 } u.pos cells
            pure { gotoHead { s with undoes := rest } with buf := b2, cursor := u.pos + cells.length }
          else pure { gotoHead { s with undoes := rest } with buf := b1, cursor := u.pos } : M St)
        let s2 ← repaint E (resetViewStart E s2)
        pure (s2, Result.cont)) (fun _ => True) := by
      intro b1 hb1
      have h1 : Easy P E c { gotoHead { s with undoes := rest } with buf := b1 } :=
        h0.pick (u := rest) hb1 hrest
      have fin : ∀ s2, Easy P E c s2 → Wp (Mild E) (do
          let s2 ← repaint E (resetViewStart E s2)
          pure (s2, Result.cont)) (fun _ => True) :=
        fun s2 h2 => Wp.bind ((repaint_mild (c := c) hS hP (h2.of)).mono fun _ _ _ => trivial)
      split
      · refine Wp.bind (Wp.mono (P := Easy P E c) ?_ fun s2 _ h2 => fin s2 h2)
        refine Wp.bind ((h1.at hP bufInsert_here).mono fun b2 hb2 _ => ?_)
        have hi := insertString_of hb2 (E := E)
        have h2 := (insertString_mild hS hP hc h1 u.pos hul).ok hi
        obtain ⟨t, h3, h4⟩ := h2
        exact Wp.pure ⟨⟨t.built, t.line, t.suffix, hrest, t.pending, t.whole, t.modHist, t.clip⟩, h3, h4⟩
      · exact Wp.bind (Wp.pure (fin _ (h1.of)))
    split
    · refine Wp.bind ((h0.at hP bufDelete_here).mono fun b1 hb1 _ => last b1 ?_)
      unfold bufDelete at hb1
      split at hb1
      · rename_i hl
        cases hb1
        intro x hx
        rw [sliceDelete_eq _ _ _ (by have := hl.1; have := hl.2; unfold St.len at *; omega)] at hx
        rcases List.mem_append.mp hx with hx | hx
        · exact List.mem_of_mem_take hx
        · exact List.mem_of_mem_drop hx
      · cases hb1
    · exact last _ fun x hx => hx

theorem showHistory_mild (h : Easy P E c s) : Wp (Mild E) (showHistory E s) (fun _ => True) := by
  unfold showHistory
  refine Wp.bind (Wp.mono (P := fun _ => True) trivial fun p hp _ => ?_)
  have h1 := h.killed hp
  obtain ⟨s1, n⟩ := p
  dsimp only at h1 ⊢
  refine Wp.bind ((h1.at hP getHistory_here).mono fun t ht _ => ?_)
  have hto : Over P t := by
    unfold getHistory at ht
    split at ht
    · rename_i hx; cases ht; exact h1.texts.modHist _ _ hx
    · split at ht
      · cases ht; exact over_nil
      · exact hS.history _ ((index_here (s := s1)).ok ht)
  split
  · refine Wp.bind ((insertString_mild hS hP hc h1 _ hto).mono fun p _ h2 => ?_)
    obtain ⟨s2, n⟩ := p
    dsimp only at h2 ⊢
    exact Wp.bind ((endOfLine_mild (c := c) hS hP hc (h2.of)).mono fun _ _ _ => trivial)
  · trivial

theorem saveModified_mild (h : Easy P E c s) : Wp (Mild E) (saveModifiedHistory E s) (Easy P E c) := by
  unfold saveModifiedHistory
  dsimp only
  have last : ∀ b : Bool, Wp (Mild E) (if b = true then pure s else
      pure { s with modHist := fun i => if i = s.histPtr then some s.text else s.modHist i } : M St)
      (Easy P E c) := by
    intro b
    cases b
    · obtain ⟨t, h3, h4⟩ := id h
      refine Wp.pure ⟨⟨t.built, t.line, t.suffix, t.undoes, t.pending, t.whole, fun i x hx => ?_, t.clip⟩, h3, h4⟩
      change (if i = s.histPtr then some s.text else s.modHist i) = some x at hx
      split at hx
      · cases hx; exact h.cut fun x hx => hx
      · exact t.modHist i x hx
    · exact h
  split
  · refine Wp.bind (Wp.mono (P := fun _ => True) ?_ fun b _ _ => last b)
    exact Wp.bind ((h.at hP histAt_here).mono fun _ _ _ => trivial)
  · exact last false

theorem quotedInsert_mild (h : Easy P E c s) (hk : ∀ k, .key k ∈ s.input → Ed.Good P E.logic k) :
    Wp (Mild E) (cmdQuotedInsert E s) (fun _ => True) := by
  unfold cmdQuotedInsert
  dsimp only
  generalize hg : getKey (s.emit .cursorOn) = g
  obtain ⟨k, s1⟩ := g
  have h1 : Easy P E c s1 := by
    obtain ⟨rest, e⟩ := getKey_state hg
    rw [e]
    exact h.of
  cases k with
  | none => trivial
  | some k =>
    dsimp only
    have : Ed.Good P E.logic k := by
      refine hk k ?_
      unfold getKey at hg
      dsimp only at hg
      split at hg
      · rename_i hp
        cases hg
        exact popKey_mem hp
      · cases hg
      · cases hg
    exact Wp.bind ((selfInsert_mild hS hP hc h1 this).mono fun _ _ _ => trivial)

theorem isearch_nine {it : ISt} (h1 : 9 ∉ it.search) (h2 : Over P it.found) : 9 ∉ isearchDraw it := by
  unfold isearchDraw
  simp only [List.mem_append, not_or]
  exact ⟨⟨⟨by decide, h1⟩, by decide⟩, over_nine hP h2⟩

theorem isearchUpdate_over (it : ISt) (n : Nat) :
    Over P (isearchUpdate E it n).found ∧ (isearchUpdate E it n).search = it.search := by
  induction n with
  | zero => exact ⟨over_nil, rfl⟩
  | succ n ih =>
    unfold isearchUpdate
    split
    · exact ⟨over_nil, rfl⟩
    · rename_i hx
      split
      · exact ⟨hS.history _ (List.mem_of_getElem? hx), rfl⟩
      · exact ih

theorem isearchPrev_over {it : ISt} (h2 : Over P it.found) (n : Nat) (i : Int) :
    Wp Any (isearchPrev E s it n i) (fun it' => Over P it'.found ∧ it'.search = it.search) := by
  induction n generalizing i with
  | zero => trivial
  | succ n ih =>
    unfold isearchPrev
    dsimp only
    generalize (if i < 0 then E.histLen - 1 else i) = j
    split
    · exact Wp.pure ⟨h2, rfl⟩
    · refine Wp.bind ((histAt_here.weaken fun _ _ => trivial).mono fun line _ hl => ?_)
      split
      · exact Wp.pure ⟨hS.history _ hl, rfl⟩
      · exact ih _

theorem isearchNext_over {it : ISt} (h2 : Over P it.found) (n : Nat) (i : Int) :
    Wp Any (isearchNext E s it n i) (fun it' => Over P it'.found ∧ it'.search = it.search) := by
  induction n generalizing i with
  | zero => trivial
  | succ n ih =>
    unfold isearchNext
    split
    · exact Wp.pure ⟨h2, rfl⟩
    · split
      · exact Wp.pure ⟨h2, rfl⟩
      · refine Wp.bind ((histAt_here.weaken fun _ _ => trivial).mono fun line _ hl => ?_)
        split
        · exact Wp.pure ⟨hS.history _ hl, rfl⟩
        · exact ih _

theorem isearchLoop_mild (n : Nat) (it : ISt) (s : St) (h : Easy P E c s) (h1 : 9 ∉ it.search) (h2 : Over P it.found) :
    Wp (Mild E) (isearchLoop E n it s) (fun _ => True) := by
  induction n generalizing it s with
  | zero => exact ⟨by simp, h.wide hP⟩
  | succ n ih =>
    unfold isearchLoop
    rw [drawLoop_eq]
    refine Wp.bind ((suffixLoop_mild _ _ _ fun m hm h9 =>
      isearch_nine hS hP hc h1 h2 (stringToMoji_nine hm h9)).mono fun s1 hs1 _ => ?_)
    have ht1 : Easy P E c s1 := by
      obtain ⟨l, e⟩ := suffixLoop_glyphs _ _ hs1
      rw [e]
      exact h.of
    dsimp only
    generalize hg : getKey ((eraseline s1).emit .cursorOn) = g
    obtain ⟨ok, s2⟩ := g
    have ht2 : Easy P E c s2 := by
      obtain ⟨rest, e⟩ := getKey_state hg
      rw [e]
      exact ht1.of
    cases ok with
    | none => trivial
    | some key =>
      dsimp only
      have ht3 : Easy P E c (gotoHead (s2.emit .cursorOff)) := ht2.of
      generalize gotoHead (s2.emit .cursorOff) = s3 at *
      split
      · refine ih _ _ ht3 ?_ (isearchUpdate_over hS hP hc _ _).1
        rw [(isearchUpdate_over hS hP hc _ _).2]
        exact nine_encodeRunes fun hm => nine_runesOf h1 ((List.dropLast_sublist _).subset hm)
      · split
        · have hk : Easy P E c { s3 with
              viewStart := 0
              undoes := ⟨0, 0, s3.text⟩ :: s3.undoes
              buf := []
              cursor := 0 } := by
            have := ht3.pick (cs := []) (u := { pos := 0, del := 0, text := s3.text } :: s3.undoes)
              (fun x hx => (by cases hx)) (fun x hx => by
                rcases List.mem_cons.mp hx with rfl | hx
                · exact ht3.cut fun x hx => hx
                · exact ht3.texts.undoes x hx)
            exact this.of
          exact Wp.bind ((replaceAndRepaint_mild hS hP hc hk _ h2).mono fun _ _ _ => trivial)
        · split
          · refine Wp.bind ((ht3.at hP getView2_here).mono fun p _ _ => ?_)
            refine Wp.bind ((puts_mild hP ht3 _ _).mono fun s4 _ h4 => ?_)
            exact Wp.bind ((puts_mild (c := c) hP (h4.of) _ _).mono fun _ _ _ => trivial)
          · split
            · refine Wp.bind ((ht3.at hP (isearchPrev_here _ _)).mono fun it' hit _ => ?_)
              obtain ⟨o, e⟩ := (isearchPrev_over hS hP hc h2 _ _).ok hit
              exact ih _ _ ht3 (e ▸ h1) o
            · split
              · refine Wp.bind ((ht3.at hP (isearchNext_here _ _)).mono fun it' hit _ => ?_)
                obtain ⟨o, e⟩ := (isearchNext_over hS hP hc h2 _ _).ok hit
                exact ih _ _ ht3 (e ▸ h1) o
              · split
                · exact ih _ _ ht3 h1 h2
                · rename_i hctl
                  refine ih _ _ ht3 ?_ (isearchUpdate_over hS hP hc _ _).1
                  rw [(isearchUpdate_over hS hP hc _ _).2]
                  simp only [List.mem_append, not_or]
                  refine ⟨h1, nine_encodeRune fun e => hctl ?_⟩
                  rw [e]; decide

/-- The command itself: its panics. -/
theorem call_mild_err {k : Cmd} (hb : k.builtin = true) (ha : Ed.Allowed P E.logic s.ed k) (h : Easy P E c s) :
    Wp (Mild E) (Cmd.call E k s) (fun _ => True) := by
  cases k with
  | custom f => cases hb
  | acceptLine | interrupt => trivial
  | beginningOfLine => exact Wp.bind ((repaint_mild (c := c) hS hP (h.of)).mono fun _ _ _ => trivial)
  | backwardChar =>
    simp only [Cmd.call, cmdBackwardChar]
    split
    · trivial
    · refine Wp.bind ((repaint_mild (c := c) hS hP (h.of)).mono fun _ _ _ => trivial)
  | endOfLine => exact endOfLine_mild hS hP hc h
  | forwardChar => exact forwardChar_mild hS hP hc h
  | backwardDeleteChar => exact (backspace_mild hS hP hc h).mono fun _ _ _ => trivial
  | deleteChar => exact deleteChar_mild hS hP hc h
  | deleteOrAbort =>
    simp only [Cmd.call, cmdDeleteOrAbort]
    split
    · exact deleteChar_mild hS hP hc h
    · trivial
  | killLine => exact killLine_mild hS hP hc h
  | killWholeLine => trivial
  | unixWordRubout => exact wordRubout_mild hS hP hc h
  | unixLineDiscard => exact lineDiscard_mild hS hP hc h
  | clearScreen => exact Wp.bind ((repaintAll_mild (c := c) hS hP hc (h.of)).mono fun _ _ _ => trivial)
  | repaintOnNewline => exact Wp.bind ((repaintAll_mild (c := c) hS hP hc (h.of)).mono fun _ _ _ => trivial)
  | quotedInsert => exact quotedInsert_mild hS hP hc h (ha.quoted rfl)
  | yank =>
    simp only [Cmd.call, cmdYank]
    cases hx : s.clip with
    | none => trivial
    | some t =>
      exact Wp.bind ((replaceAndRepaint_mild hS hP hc h _ (over_trim (h.texts.clip t hx))).mono fun _ _ _ => trivial)
  | yankWithQuote =>
    simp only [Cmd.call, cmdYankWithQuote]
    cases hx : s.clip with
    | none => trivial
    | some t =>
      exact Wp.bind ((replaceAndRepaint_mild hS hP hc h _ (over_quote (h.texts.clip t hx) (ha.quotes rfl))).mono
        fun _ _ _ => trivial)
  | swapChar => exact swapChar_mild hS hP hc h
  | backwardWord => exact backwardWord_mild hS hP hc h
  | forwardWord => exact forwardWord_mild hS hP hc h
  | undo => exact undo_mild hS hP hc h
  | previousHistory =>
    simp only [Cmd.call, cmdPreviousHistory]
    split
    · trivial
    · split
      · trivial
      · refine Wp.bind ((saveModified_mild (c := c) hS hP hc ?_).mono fun s1 _ h1 =>
          showHistory_mild (c := c) hS hP hc (h1.of))
        split
        · exact h.of
        · exact h
  | nextHistory =>
    simp only [Cmd.call, cmdNextHistory]
    split
    · trivial
    · split
      · trivial
      · exact Wp.bind ((saveModified_mild hS hP hc h).mono fun s1 _ h1 => showHistory_mild (c := c) hS hP hc (h1.of))
  | isearchBackward => exact isearchLoop_mild hS hP hc _ _ _ (h.of) (by simp) over_nil
  | selfInsert k => exact selfInsert_mild hS hP hc h (ha.self k rfl)
  | completion K =>
    show Wp _ (cmdComplete E K s) _
    by_cases hl : s.cursor ≤ s.len
    · rw [cmdComplete_eq hl]
      cases hx : completionOf K.uni K.completer K.postfix_ s.before with
      | crash => exact ⟨by simp, h.wide hP⟩
      | nothing => trivial
      | bell l =>
        unfold Outcome.call
        cases K.box with
        | none => trivial
        | some box =>
          dsimp only
          split
          · trivial
          · exact Wp.bind ((repaintAll_mild (c := c) hS hP hc (h.of)).mono fun _ _ _ => trivial)
      | insert pos t =>
        exact Wp.bind ((replaceAndRepaint_mild hS hP hc h _ (ha.completion K rfl _ _ _ hx)).mono fun _ _ _ => trivial)
    · rw [cmdComplete_beyond hl]
      exact ⟨by simp, h.wide hP⟩

theorem call_mild {k : Cmd} (hb : k.builtin = true) (ha : Ed.Allowed P E.logic s.ed k) (h : Easy P E c s) :
    Wp (Mild E) (Cmd.call E k s) (fun p => Easy P E c p.1) := by
  refine Wp.both (call_mild_err hS hP hc hb ha h) fun p hp => ?_
  have hr := (call_r hb s).ok hp
  have ht := h.texts.call hS ha
  rcases (call_ed hb hp).1 with he | ⟨-, he⟩
  · exact h.next hc hr he ht
  · exact h.next hc hr he (ht.predict hS)

theorem finish_mild (h : Easy P E c s) (rc : Result) : Wp (Mild E) (finish E s rc) (fun _ => True) := by
  unfold finish
  cases s.suffix with
  | none => trivial
  | some x =>
    refine Wp.bind ((repaintNoSuffix_mild (c := c) hP ?_).mono fun _ _ _ => trivial)
    obtain ⟨t, h3, h4⟩ := h
    exact ⟨⟨t.built, t.line, over_nil, t.undoes, t.pending, t.whole, t.modHist, t.clip⟩, h3, h4⟩

end

/-! ## Sessions -/

variable {P : Nat → Prop} {E : Env} {w : World} {s : St}

theorem ordinary_easy (hb : BuiltinKeys E) (ho : Modest P E w) (h : Reachable E w s) :
    Easy P E (promptWidth E w.promptN) s :=
  ⟨reachable_from hb ho.sources h, modest_top hb ho h, by
    rcases reachable_width (BuiltinKeys.builtin hb) h with h' | h'
    · rw [h']; exact ho.room
    · exact ho.resized _ h'⟩

theorem ordinary_step_mild (hb : BuiltinKeys E) (ho : Modest P E w) (h : Reachable E w s) :
    Wp (Mild E) (step E s) (fun _ => True) := by
  have ht := ordinary_easy hb ho h
  have hin := reachable_input hb h
  have hS := ho.sources.src
  unfold step
  cases hi : s.input with
  | nil => trivial
  | cons ev rest =>
    cases ev with
    | err x => trivial
    | resize n =>
      dsimp only
      refine Wp.bind (Wp.mono (P := fun _ => True) ?_ fun _ _ _ => trivial)
      unfold onResize
      refine (repaintLastLine_mild (c := promptWidth E w.promptN) hS ho.plain ho.prompt ?_).mono fun _ _ _ => trivial
      have hn := ho.resized n (hin.subset (by rw [hi]; simp))
      obtain ⟨t, h3, h4⟩ := ht
      exact ⟨⟨t.built, t.line, t.suffix, t.undoes, t.pending, t.whole, t.modHist, t.clip⟩, h3, hn⟩
    | key k =>
      dsimp only
      unfold execCmd
      have hk : .key k ∈ w.input := hin.subset (by rw [hi]; simp)
      have ha := ho.sources.allowed (e := (({ s.emit .await with input := rest } : St).emit .cursorOff).ed) hk
        fun ev hev => hin.subset (by rw [hi]; exact List.mem_cons_of_mem _ hev)
      refine Wp.bind ((call_mild (c := promptWidth E w.promptN) hS ho.plain ho.prompt (BuiltinKeys.builtin hb k) ha
        (ht.of)).mono fun p _ h1 => ?_)
      obtain ⟨s1, rc⟩ := p
      have fin : Wp (Mild E) (do
          let p ← finish E (s1.emit .cursorOn) rc
          return (p.1, some p.2)) (fun _ => True) :=
        Wp.bind ((finish_mild (c := promptWidth E w.promptN) hS ho.plain ho.prompt (h1.of) rc).mono fun _ _ _ => trivial)
      cases rc
      · trivial
      · exact fin
      · exact fin
      · exact fin

theorem promptSt_easy (ho : Modest P E w) : Easy P E (promptWidth E w.promptN) (promptSt E w) := by
  refine ⟨?_, ?_, ?_⟩
  · rw [promptSt_ed]
    exact ⟨fun m hm => (by cases hm), fun m hm => (by cases hm), over_nil, fun u hu => (by cases hu), over_nil, ValidUtf8.nil,
      fun i t ht => (by cases ht), ho.sources.clip⟩
  · unfold promptSt
    dsimp only
    rw [callPromptWriter_cols]
    have ht : ∀ q : St, (callPromptWriter E q).2.termWidth = q.termWidth := fun q =>
      (callPromptWriter_r (Roomy.refl q)).1
    have := ho.room
    cases hn : E.promptErr with
    | none =>
      dsimp only
      rw [ht]
      rw [if_neg (by show ¬ _ ≥ w.termWidth - 3; show ¬ promptWidth E w.promptN ≥ w.termWidth - 3; omega)]
    | some e =>
      rcases ho.top with h | h
      · rw [hn] at h; cases h
      · rw [h]
  · have : (promptSt E w).termWidth = w.termWidth := by
      unfold promptSt
      dsimp only
      have ht : ∀ q : St, (callPromptWriter E q).2.termWidth = q.termWidth := fun q =>
        (callPromptWriter_r (Roomy.refl q)).1
      split
      · exact ht _
      · split
        · exact ht _
        · exact ht _
    rw [this]; exact ho.room

theorem ordinary_start_mild (ho : Modest P E w) : Wp (Mild E) (startSt E w) (fun _ => True) := by
  have hS := ho.sources.src
  have ht := promptSt_easy ho
  unfold startSt
  refine Wp.bind ((insertString_mild hS ho.plain ho.prompt ht _ ho.sources.default).mono fun p _ h1 => ?_)
  obtain ⟨s1, n⟩ := p
  dsimp only at h1 ⊢
  refine Wp.bind (Wp.mono (P := fun _ => True) ?_ fun _ _ _ => trivial)
  unfold repaintAfterPrompt
  refine (repaint_mild (c := promptWidth E w.promptN) hS ho.plain ?_).mono fun _ _ _ => trivial
  have : Easy P E (promptWidth E w.promptN) (if s1.cursor > s1.len then { s1 with cursor := s1.len } else s1) := by
    split
    · exact h1.of
    · exact h1
  exact this.of

/-- A panic of an ordinary session comes neither from a tab nor from the want of room. -/
theorem ordinary_mild (hb : BuiltinKeys E) (ho : Modest P E w) {p : Panic} (h : readLine E w = .error p) : Mild E p := by
  rcases readLine_error hb h with h | ⟨t, ht, h⟩
  · exact (ordinary_start_mild ho).error h
  · exact (ordinary_step_mild hb ho ht).error h

end Readline
