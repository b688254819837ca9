import Verif.Spec.Looks
import Verif.Proof.Slice
/-!
# Colours and output make no difference

Every function of the model does the same to twins (`Twin vis s t`, Spec/Looks.lean), under editors
that differ only in what they write (`Dressed`).
-/
namespace Readline

section
variable {vis : Seeing} {E F : Env}

theorem Dressed.cfg (h : Dressed vis E F) : F.cfg = E.cfg := congrArg Logic.cfg h.logic
theorem Dressed.history (h : Dressed vis E F) : F.history = E.history := congrArg Logic.history h.logic
theorem Dressed.histLen (h : Dressed vis E F) : F.histLen = E.histLen := by
  unfold Env.histLen; rw [h.history]
theorem Dressed.cycling (h : Dressed vis E F) : F.historyCycling = E.historyCycling :=
  congrArg Logic.historyCycling h.logic
theorem Dressed.on (h : Dressed vis E F) : F.predictColor.1 = [] ↔ E.predictColor.1 = [] := by
  have := congrArg Logic.predictOn h.logic
  simp only [Env.logic, decide_eq_decide] at this
  exact ⟨fun a => Decidable.by_contra fun c => this.mpr c a,
    fun a => Decidable.by_contra fun c => this.mp c a⟩
theorem Dressed.predict (h : Dressed vis E F) : F.predict = E.predict := congrArg Logic.predict h.logic
theorem Dressed.default (h : Dressed vis E F) : F.default = E.default := congrArg Logic.default h.logic
theorem Dressed.delimiters (h : Dressed vis E F) : F.delimiters = E.delimiters :=
  congrArg Logic.delimiters h.logic
theorem Dressed.toUpper (h : Dressed vis E F) : F.toUpper = E.toUpper := congrArg Logic.toUpper h.logic
theorem Dressed.clipSet (h : Dressed vis E F) : F.clipSet = E.clipSet := congrArg Logic.clipSet h.logic
theorem Dressed.keyMap (h : Dressed vis E F) : F.keyMap = E.keyMap := congrArg Logic.keyMap h.logic
theorem Dressed.globalKeyMap (h : Dressed vis E F) : F.globalKeyMap = E.globalKeyMap :=
  congrArg Logic.globalKeyMap h.logic

end

variable {vis : Seeing}

theorem Twin.rfl' (s : St) : Twin vis s s := ⟨Eq.refl _, Eq.refl _, Eq.refl _⟩

theorem Twin.elim {s t : St} (h : Twin vis s t) :
    ∃ cs o, SameMojis s.buf cs ∧ o.filterMap vis = s.out.filterMap vis ∧
      t = { s with buf := cs, out := o } :=
  ⟨t.buf, t.out, h.1, h.2.2, h.2.1⟩

theorem both_bind {Q : α → β → Prop} {R : α' → β' → Prop} {x : M α} {y : M β}
    {k : α → M α'} {l : β → M β'} (h : Both vis Q x y) (hk : ∀ a c, Q a c → Both vis R (k a) (l c)) :
    Both vis R (x >>= k) (y >>= l) := by
  cases x <;> cases y
  · exact h
  · exact h.elim
  · exact h.elim
  · exact hk _ _ h

theorem both_pure {Q : α → β → Prop} {a : α} {c : β} (h : Q a c) :
    Both vis Q (pure a) (pure c) := h

theorem both_ite {Q : α → β → Prop} {p q : Prop} [Decidable p] [Decidable q] {x x' : M α}
    {y y' : M β} (hpq : q ↔ p) (h : p → Both vis Q x y) (h' : ¬ p → Both vis Q x' y') :
    Both vis Q (if p then x else x') (if q then y else y') := by
  by_cases hp : p
  · rw [if_pos hp, if_pos (hpq.mpr hp)]; exact h hp
  · rw [if_neg hp, if_neg (mt hpq.mp hp)]; exact h' hp

theorem twin_ite {p q : Prop} [Decidable p] [Decidable q] {x x' y y' : St}
    (hpq : q ↔ p) (h : p → Twin vis x y) (h' : ¬ p → Twin vis x' y') :
    Twin vis (if p then x else x') (if q then y else y') := by
  by_cases hp : p
  · rw [if_pos hp, if_pos (hpq.mpr hp)]; exact h hp
  · rw [if_neg hp, if_neg (mt hpq.mp hp)]; exact h' hp

/-! ## Lists of cells -/

section lists
variable {a c : List Cell}

theorem SameMojis.length (h : SameMojis a c) : c.length = a.length := by
  have := congrArg List.length h
  simpa using this

theorem SameMojis.len {s t : St} (h : SameMojis s.buf t.buf) : t.len = s.len := by
  unfold St.len; rw [h.length]

theorem SameMojis.take (h : SameMojis a c) (n : Nat) : SameMojis (a.take n) (c.take n) := by
  unfold SameMojis at *
  rw [List.map_take, List.map_take, h]

theorem SameMojis.drop (h : SameMojis a c) (n : Nat) : SameMojis (a.drop n) (c.drop n) := by
  unfold SameMojis at *
  rw [List.map_drop, List.map_drop, h]

theorem SameMojis.append {a' c' : List Cell} (h : SameMojis a c) (h' : SameMojis a' c') :
    SameMojis (a ++ a') (c ++ c') := by
  unfold SameMojis at *
  rw [List.map_append, List.map_append, h, h']

theorem SameMojis.text (h : SameMojis a c) : cell2string c = cell2string a := by
  have e : ∀ l : List Cell, cell2string l = (l.map (·.moji)).flatMap Moji.write := by
    intro l; simp [cell2string, List.flatMap_map]
  rw [e, e, h]

theorem SameMojis.width (h : SameMojis a c) (C : Cfg) : cellsWidth C c = cellsWidth C a := by
  have e : ∀ l : List Cell, cellsWidth C l = ((l.map (·.moji)).map (fun m => m.width C)).sum := by
    intro l; simp [cellsWidth, List.map_map, Function.comp_def]
  rw [e, e, h]

theorem SameMojis.get (h : SameMojis a c) (n : Nat) :
    (a[n]? = none ∧ c[n]? = none) ∨ ∃ x y, a[n]? = some x ∧ c[n]? = some y ∧ y.moji = x.moji := by
  have := congrArg (fun l => l[n]?) h
  simp only [List.getElem?_map] at this
  cases ha : a[n]? with
  | none =>
    rw [ha] at this
    cases hc : c[n]? with
    | none => exact .inl ⟨rfl, rfl⟩
    | some y => rw [hc] at this; cases this
  | some x =>
    rw [ha] at this
    cases hc : c[n]? with
    | none => rw [hc] at this; cases this
    | some y =>
      rw [hc] at this
      exact .inr ⟨x, y, rfl, rfl, Option.some.inj this⟩

theorem SameMojis.cons {x : Cell} {a c : List Cell} (h : SameMojis (x :: a) c) :
    ∃ y d, c = y :: d ∧ y.moji = x.moji ∧ SameMojis a d := by
  cases c with
  | nil => cases h
  | cons y d =>
    unfold SameMojis at h
    simp only [List.map_cons, List.cons.injEq] at h
    exact ⟨y, d, rfl, h.1, h.2⟩

theorem SameMojis.nil_left {c : List Cell} (h : SameMojis [] c) : c = [] := by
  cases c with
  | nil => rfl
  | cons y d => cases h

theorem SameMojis.viewLoop (C : Cfg) (v : Int) : ∀ {a c : List Cell} (_ : SameMojis a c) (w : Int)
    (n : Nat), viewLoop C v c w n = viewLoop C v a w n
  | [], c, h, w, n => by rw [h.nil_left]
  | x :: a, c, h, w, n => by
    obtain ⟨y, d, rfl, e, h⟩ := h.cons
    simp only [Readline.viewLoop]
    rw [e, h.viewLoop C v]

theorem SameMojis.resetInner (h : SameMojis a c) (C : Cfg) (v : Int) : ∀ (n k : Nat) (w : Int),
    resetInner C c v n k w = resetInner C a v n k w
  | 0, k, w => rfl
  | n + 1, k, w => by
    simp only [Readline.resetInner]
    split
    · rcases h.get k with ⟨e, f⟩ | ⟨x, y, e, f, g⟩
      · rw [e, f]
      · rw [e, f]
        simp only
        rw [g, h.resetInner C v n]
    · rfl

theorem SameMojis.resetOuter (h : SameMojis a c) (C : Cfg) (v cur : Int) :
    ∀ {a' c' : List Cell} (_ : SameMojis a' c') (i : Int) (k : Nat) (w : Int),
    resetOuter C c v cur c' i k w = resetOuter C a v cur a' i k w
  | [], c', h', i, k, w => by rw [h'.nil_left]; rfl
  | x :: a', c', h', i, k, w => by
    obtain ⟨y, d, rfl, e, h'⟩ := h'.cons
    simp only [Readline.resetOuter]
    rw [e, h.length, h.resetInner C v]
    split
    · generalize Readline.resetInner C a v (a.length + 1) k (w + x.moji.width C) = z
      obtain ⟨z, o⟩ := z
      cases o with
      | none => rfl
      | some o => exact h.resetOuter C v cur h' _ _ _
    · rfl

theorem SameMojis.wordTopLoop (ds : List Rune) : ∀ {a c : List Cell} (_ : SameMojis a c) (i w : Int)
    (q : Rune), wordTopLoop ds c i w q = wordTopLoop ds a i w q
  | [], c, h, i, w, q => by rw [h.nil_left]
  | x :: a, c, h, i, w, q => by
    obtain ⟨y, d, rfl, e, h⟩ := h.cons
    simp only [Readline.wordTopLoop]
    rw [e]
    cases x.moji.toRune? with
    | none => exact h.wordTopLoop ds _ _ _
    | some r => exact h.wordTopLoop ds _ _ _

theorem SameMojis.eolLoop (h : SameMojis a c) (C : Cfg) (v : Int) : ∀ (n : Nat) (w : Int),
    eolLoop C c v n w = eolLoop C a v n w
  | 0, w => rfl
  | n + 1, w => by
    simp only [Readline.eolLoop]
    rcases h.get n with ⟨e, f⟩ | ⟨x, y, e, f, g⟩
    · rw [e, f]
    · rw [e, f]
      simp only
      rw [g, h.eolLoop C v n]

theorem SameMojis.skipSpacesLeft (h : SameMojis a c) : ∀ n : Nat,
    skipSpacesLeft c n = skipSpacesLeft a n
  | 0 => rfl
  | n + 1 => by
    simp only [Readline.skipSpacesLeft]
    rcases h.get n with ⟨e, f⟩ | ⟨x, y, e, f, g⟩
    · rw [e, f]
    · rw [e, f]
      simp only
      rw [g, h.skipSpacesLeft n]

theorem SameMojis.skipWordLeft (h : SameMojis a c) : ∀ n : Nat,
    skipWordLeft c n = skipWordLeft a n
  | 0 => rfl
  | n + 1 => by
    simp only [Readline.skipWordLeft]
    rcases h.get n with ⟨e, f⟩ | ⟨x, y, e, f, g⟩
    · rw [e, f]
    · rw [e, f]
      simp only
      rw [g, h.skipWordLeft n]

theorem SameMojis.skipRight (p : Moji → Bool) : ∀ {a c : List Cell} (_ : SameMojis a c) (n : Nat),
    skipRight (fun x => p x.moji) c n = skipRight (fun x => p x.moji) a n
  | [], c, h, n => by rw [h.nil_left]
  | x :: a, c, h, n => by
    obtain ⟨y, d, rfl, e, h⟩ := h.cons
    simp only [Readline.skipRight, e, h.skipRight p]

theorem SameMojis.forwardWordPos (h : SameMojis a c) (n : Nat) :
    forwardWordPos c n = forwardWordPos a n := by
  unfold Readline.forwardWordPos
  dsimp only
  rw [(h.drop n).skipRight (fun m => !m.isSpace) n, (h.drop _).skipRight (fun m => m.isSpace) _]

theorem SameMojis.refreshPanics : ∀ {a c : List Cell} (_ : SameMojis a c),
    c.any Cell.refreshPanics = a.any Cell.refreshPanics
  | [], c, h => by rw [h.nil_left]
  | x :: a, c, h => by
    obtain ⟨y, d, rfl, e, h⟩ := h.cons
    have : y.refreshPanics = x.refreshPanics := by unfold Cell.refreshPanics; rw [e]
    rw [List.any_cons, List.any_cons, this, h.refreshPanics]

theorem refreshCell_same (C : Cfg) (K L : Coloring) (σ : K.σ) (τ : L.σ) (p : Int) {x y : Cell}
    (e : y.moji = x.moji) :
    (refreshCell C L τ p y).2.1 = (refreshCell C K σ p x).2.1 ∧
      (refreshCell C L τ p y).2.2.moji = (refreshCell C K σ p x).2.2.moji := by
  obtain ⟨m, cx, px⟩ := x
  obtain ⟨m', cy, py⟩ := y
  cases e
  unfold refreshCell
  dsimp only
  cases m with
  | tab q => exact ⟨rfl, rfl⟩
  | _ =>
    dsimp only
    split <;> exact ⟨rfl, rfl⟩

theorem SameMojis.refreshLoop (C : Cfg) (K L : Coloring) (cur : Int) : ∀ {a c : List Cell}
    (_ : SameMojis a c) (σ : K.σ) (τ : L.σ) (i p : Int),
    SameMojis (refreshLoop C K cur σ i p a) (refreshLoop C L cur τ i p c)
  | [], c, h, σ, τ, i, p => by rw [h.nil_left]; rfl
  | x :: a, c, h, σ, τ, i, p => by
    obtain ⟨y, d, rfl, e, h⟩ := h.cons
    simp only [Readline.refreshLoop]
    have f := refreshCell_same C K L (if i = cur then (K.next σ cursorDummyRune).1 else σ)
      (if i = cur then (L.next τ cursorDummyRune).1 else τ) p e
    generalize refreshCell C K (if i = cur then (K.next σ cursorDummyRune).1 else σ) p x = z at f
    generalize refreshCell C L (if i = cur then (L.next τ cursorDummyRune).1 else τ) p y = z' at f
    have g := h.refreshLoop C K L cur z.1 z'.1 (i + 1) z.2.1
    unfold SameMojis
    simp only [List.map_cons, List.cons.injEq]
    rw [f.1]
    exact ⟨f.2, g⟩

theorem SameMojis.refl (a : List Cell) : SameMojis a a := rfl

theorem SameMojis.sliceInsert (h : SameMojis a c) (n : Nat) (ins : List Cell) :
    SameMojis (sliceInsert a n ins) (sliceInsert c n ins) := by
  unfold Readline.sliceInsert goCopyInto goCopyWithin
  simp only [List.length_append, h.length]
  exact (((((h.append (.refl ins)).take _).append (((h.append (.refl ins)).drop _).take _)).append
    ((h.append (.refl ins)).drop _)).take _ |>.append (.refl _)).append
      (((((h.append (.refl ins)).take _).append (((h.append (.refl ins)).drop _).take _)).append
    ((h.append (.refl ins)).drop _)).drop _)

theorem SameMojis.sliceDelete (h : SameMojis a c) (n k : Nat) :
    SameMojis (sliceDelete a n k) (sliceDelete c n k) := by
  unfold Readline.sliceDelete goCopyWithin
  simp only [h.length]
  exact (((h.take _).append ((h.drop _).take _)).append (h.drop _)).take _

theorem SameMojis.set (h : SameMojis a c) (n : Nat) {x y : Cell} (e : y.moji = x.moji) :
    SameMojis (a.set n x) (c.set n y) := by
  unfold SameMojis at *
  rw [List.map_set, List.map_set, h, e]

theorem SameMojis.swapAt (h : SameMojis a c) (n : Nat) : SameMojis (swapAt a n) (swapAt c n) := by
  unfold Readline.swapAt
  rcases h.get n with ⟨e, f⟩ | ⟨x, y, e, f, g⟩
  · rw [e, f]; exact h
  · rw [e, f]
    rcases h.get (n + 1) with ⟨e', f'⟩ | ⟨x', y', e', f', g'⟩
    · rw [e', f']; exact h
    · rw [e', f']
      exact (h.set n g').set (n + 1) g

end lists

/-! ## Buffer functions -/

section funs
variable {vis : Seeing} {E F : Env}

theorem twin_emit_eq {s t : St} (h : Twin vis s t) {x y : Tok} (e : vis y = vis x) :
    Twin vis (s.emit x) (t.emit y) := by
  obtain ⟨cs, o, hm, ho, rfl⟩ := h.elim
  refine ⟨hm, rfl, ?_⟩
  simp only [St.emit, List.filterMap_append, ho, List.filterMap_cons, e]

theorem twin_emit {s t : St} (h : Twin vis s t) (x : Tok) : Twin vis (s.emit x) (t.emit x) :=
  twin_emit_eq h rfl

theorem twin_emit_left {s t : St} (h : Twin vis s t) {x : Tok} (e : vis x = none) :
    Twin vis (s.emit x) t := by
  obtain ⟨cs, o, hm, ho, rfl⟩ := h.elim
  refine ⟨hm, rfl, ?_⟩
  simp only [St.emit, List.filterMap_append, ho, List.filterMap_cons, e, List.filterMap_nil,
    List.append_nil]

theorem twin_emit_right {s t : St} (h : Twin vis s t) {x : Tok} (e : vis x = none) :
    Twin vis s (t.emit x) := by
  obtain ⟨cs, o, hm, ho, rfl⟩ := h.elim
  refine ⟨hm, rfl, ?_⟩
  simp only [St.emit, List.filterMap_append, ho, List.filterMap_cons, e, List.filterMap_nil,
    List.append_nil]

theorem both_slice {s t : St} (h : Twin vis s t) {a c : List Cell} (hm : SameMojis a c) (lo hi : Int) :
    Both vis SameMojis (slice s a lo hi) (slice t c lo hi) := by
  unfold slice
  rw [hm.length]
  exact both_ite Iff.rfl (fun _ => both_ite Iff.rfl (fun _ => (hm.take _).drop _)
    (fun _ => ⟨rfl, h⟩)) (fun _ => ⟨rfl, h⟩)

theorem both_index {s t : St} (h : Twin vis s t) {a c : List Cell} (hm : SameMojis a c) (i : Int) :
    Both vis (fun x y => y.moji = x.moji) (index s a i) (index t c i) := by
  unfold index
  refine both_ite Iff.rfl (fun _ => ⟨rfl, h⟩) (fun _ => ?_)
  rcases hm.get i.toNat with ⟨e, f⟩ | ⟨x, y, e, f, g⟩
  · rw [e, f]; exact ⟨rfl, h⟩
  · rw [e, f]; exact g

theorem both_index_eq {s t : St} (h : Twin vis s t) (l : List α) (i : Int) :
    Both vis (fun x y => y = x) (index s l i) (index t l i) := by
  unfold index
  refine both_ite Iff.rfl (fun _ => ⟨rfl, h⟩) (fun _ => ?_)
  cases l[i.toNat]? with
  | none => exact ⟨rfl, h⟩
  | some x => exact rfl

theorem both_printMoji {s t : St} (h : Twin vis s t) (m : Moji) :
    Both vis (Twin vis) (printMoji s m) (printMoji t m) := by
  unfold printMoji
  exact both_ite Iff.rfl (fun _ => ⟨rfl, h⟩) (fun _ => twin_emit h _)

theorem twin_updateSuffix (hE : Dressed vis E F) {s t : St} (h : Twin vis s t) :
    Twin vis (updateSuffix E s) (updateSuffix F t) := by
  obtain ⟨cs, o, hm, ho, rfl⟩ := h.elim
  unfold updateSuffix
  refine twin_ite hE.on (fun _ => ⟨hm, rfl, ho⟩) (fun _ => ?_)
  refine twin_ite (by rw [hm.length]) (fun _ => ⟨hm, rfl, ho⟩) (fun _ => ⟨hm, ?_, ho⟩)
  have : St.text { s with buf := cs, out := o } = s.text := hm.text
  rw [hE.cfg, hE.predict, this]

theorem both_getView (hE : Dressed vis E F) {s t : St} (h : Twin vis s t) :
    Both vis (fun x y => y = x) (getView E s) (getView F t) := by
  obtain ⟨cs, o, hm, ho, rfl⟩ := h.elim
  unfold getView
  rw [hE.cfg, SameMojis.len (s := s) (t := { s with buf := cs, out := o }) hm]
  exact both_bind (both_slice h hm _ _) fun a c hac => by
    exact (hac.viewLoop _ _ _ _)

theorem both_bufInsert {s t : St} (h : Twin vis s t) (pos : Int) (ins : List Cell) :
    Both vis SameMojis (bufInsert s pos ins) (bufInsert t pos ins) := by
  obtain ⟨cs, o, hm, ho, rfl⟩ := h.elim
  unfold bufInsert
  rw [SameMojis.len (s := s) (t := { s with buf := cs, out := o }) hm]
  exact both_ite Iff.rfl (fun _ => hm.sliceInsert _ _) (fun _ => ⟨rfl, h⟩)

theorem both_bufDelete {s t : St} (h : Twin vis s t) (pos : Int) (n : Nat) :
    Both vis SameMojis (bufDelete s pos n) (bufDelete t pos n) := by
  obtain ⟨cs, o, hm, ho, rfl⟩ := h.elim
  unfold bufDelete
  rw [SameMojis.len (s := s) (t := { s with buf := cs, out := o }) hm]
  exact both_ite Iff.rfl (fun _ => hm.sliceDelete _ _) (fun _ => ⟨rfl, h⟩)

theorem both_insertCells {s t : St} (h : Twin vis s t) (pos : Int) (ins : List Cell) :
    Both vis (Twin vis) (insertCells s pos ins) (insertCells t pos ins) := by
  unfold insertCells
  refine both_bind (both_bufInsert h pos ins) fun a c hac => ?_
  obtain ⟨cs, o, hm, ho, rfl⟩ := h.elim
  exact ⟨hac, rfl, ho⟩

theorem both_insertString (hE : Dressed vis E F) {s t : St} (h : Twin vis s t) (pos : Int) (str : Bytes) :
    Both vis (Twin2 vis) (insertString E s pos str) (insertString F t pos str) := by
  unfold insertString
  dsimp only
  rw [hE.cfg]
  exact both_bind (both_insertCells h pos _) fun a c hac => ⟨hac, rfl⟩

theorem both_deleteCells (hE : Dressed vis E F) {s t : St} (h : Twin vis s t) (pos n : Int) :
    Both vis (Twin2 vis) (deleteCells E s pos n) (deleteCells F t pos n) := by
  obtain ⟨cs, o, hm, ho, rfl⟩ := h.elim
  unfold deleteCells
  rw [SameMojis.len (s := s) (t := { s with buf := cs, out := o }) hm]
  refine both_ite Iff.rfl (fun _ => ⟨h, rfl⟩) (fun _ => ?_)
  refine both_bind (both_slice h hm _ _) fun a c hac => ?_
  dsimp only
  rw [hac.text]
  refine both_bind (both_bufDelete ⟨hm, rfl, ho⟩ pos _) fun a' c' hac' => ?_
  exact ⟨⟨hac', rfl, ho⟩, by rw [hE.cfg]; exact hac.width _⟩

theorem twin_resetViewStart (hE : Dressed vis E F) {s t : St} (h : Twin vis s t) :
    Twin vis (resetViewStart E s) (resetViewStart F t) := by
  obtain ⟨cs, o, hm, ho, rfl⟩ := h.elim
  unfold resetViewStart
  refine ⟨hm, ?_, ho⟩
  dsimp only
  rw [hE.cfg, hm.resetOuter E.cfg _ _ hm]
  rfl

theorem both_widthBetween (hE : Dressed vis E F) {s t : St} (h : Twin vis s t) (lo hi : Int) :
    Both vis (fun x y => y = x) (widthBetween E s lo hi) (widthBetween F t lo hi) := by
  unfold widthBetween
  refine both_bind (both_slice h h.1 _ _) fun a c hac => ?_
  rw [hE.cfg]
  exact hac.width _

theorem both_subString {s t : St} (h : Twin vis s t) (lo hi : Int) :
    Both vis (fun x y => y = x) (subString s lo hi) (subString t lo hi) := by
  unfold subString
  exact both_bind (both_slice h h.1 _ _) fun a c hac => hac.text

theorem both_currentWordTop (hE : Dressed vis E F) {s t : St} (h : Twin vis s t) :
    Both vis (fun x y => y = x) (currentWordTop E s) (currentWordTop F t) := by
  have hc : t.cursor = s.cursor := by rw [h.2.1]
  unfold currentWordTop
  rw [hc, hE.delimiters]
  refine both_bind (both_slice h h.1 _ _) fun a c hac => ?_
  dsimp only
  rw [hac.wordTopLoop]
  exact rfl

theorem twin_joinUndo {s t : St} (h : Twin vis s t) : Twin vis (joinUndo s) (joinUndo t) := by
  obtain ⟨cs, o, hm, ho, rfl⟩ := h.elim
  have e : joinUndo { s with buf := cs, out := o } = { joinUndo s with buf := cs, out := o } := by
    unfold joinUndo
    dsimp only
    repeat' split
    all_goals rfl
  have f : (joinUndo s).buf = s.buf := by
    unfold joinUndo
    repeat' split
    all_goals rfl
  have g : (joinUndo s).out = s.out := by
    unfold joinUndo
    repeat' split
    all_goals rfl
  rw [e]
  exact ⟨by rw [f]; exact hm, rfl, by rw [g]; exact ho⟩

theorem both_refreshColor (hE : Dressed vis E F) {s t : St} (h : Twin vis s t) :
    Both vis (Twin vis) (refreshColor E s) (refreshColor F t) := by
  obtain ⟨cs, o, hm, ho, rfl⟩ := h.elim
  unfold refreshColor
  dsimp only
  rw [hm.refreshPanics, hE.cfg]
  exact both_ite Iff.rfl (fun _ => ⟨rfl, h⟩) (fun _ => ⟨hm.refreshLoop _ _ _ _ _ _ _ _, rfl, ho⟩)

theorem both_putsLoop (hv : ∀ c, vis (.sgr c) = none) : ∀ {a c : List Cell} (_ : SameMojis a c) (k l : Color) {s t : St}
    (_ : Twin vis s t), Both vis (fun x y => Twin vis x.1 y.1) (putsLoop a k s) (putsLoop c l t)
  | [], c, h, k, l, s, t, hs => by rw [h.nil_left]; exact hs
  | x :: a, c, h, k, l, s, t, hs => by
    obtain ⟨y, d, rfl, e, h⟩ := h.cons
    simp only [putsLoop]
    rw [e]
    refine both_bind (both_printMoji ?_ _) fun a' c' hac => both_putsLoop hv h _ _ hac
    split <;> split
    · exact twin_emit_eq hs (by rw [hv, hv])
    · exact twin_emit_left hs (hv _)
    · exact twin_emit_right hs (hv _)
    · exact hs

theorem both_puts (hE : Dressed vis E F) {s t : St} (h : Twin vis s t) (lo hi : Int) :
    Both vis (Twin vis) (puts E s lo hi) (puts F t lo hi) := by
  unfold puts
  refine both_bind (both_slice h h.1 lo hi) fun _ _ _ => ?_
  refine both_bind (both_refreshColor hE h) fun s t h => ?_
  refine both_bind (both_slice h h.1 lo hi) fun a c hac => ?_
  refine both_bind (both_putsLoop hE.sgr hac _ _ h) fun x y h => ?_
  obtain ⟨s, k⟩ := x
  obtain ⟨t, l⟩ := y
  dsimp only at h ⊢
  show Twin vis _ _
  split <;> split
  · exact twin_emit_eq h (by rw [hE.sgr, hE.sgr])
  · exact twin_emit_left h (hE.sgr _)
  · exact twin_emit_right h (hE.sgr _)
  · exact h

theorem twin_gotoHead {s t : St} (h : Twin vis s t) : Twin vis (gotoHead s) (gotoHead t) := by
  unfold gotoHead
  rw [show t.topColumn = s.topColumn by rw [h.2.1]]
  exact twin_emit h _

theorem twin_eraseline {s t : St} (h : Twin vis s t) : Twin vis (eraseline s) (eraseline t) :=
  twin_emit h _

theorem both_suffixLoop (C : Cfg) (vw : Int) : ∀ (ms : List Moji) (w : Int) {s t : St} (_ : Twin vis s t),
    Both vis (Twin vis) (suffixLoop C vw ms w s) (suffixLoop C vw ms w t)
  | [], w, s, t, h => h
  | m :: ms, w, s, t, h => by
    simp only [suffixLoop]
    exact both_ite Iff.rfl (fun _ => h) (fun _ =>
      both_bind (both_printMoji h m) fun a c hac => both_suffixLoop C vw ms _ hac)

theorem both_getView2 (hE : Dressed vis E F) {s t : St} (h : Twin vis s t) :
    Both vis (fun x y => y = x) (getView2 E s) (getView2 F t) := by
  have hc : t.cursor = s.cursor := by rw [h.2.1]
  have hv : t.viewStart = s.viewStart := by rw [h.2.1]
  unfold getView2
  refine both_bind (both_getView hE h) fun a c hac => ?_
  subst hac
  rw [hc, hv]
  exact both_bind (both_slice h h.1 _ _) fun _ _ _ => rfl

theorem twin_visibleSuffix (hE : Dressed vis E F) {s t : St} (h : Twin vis s t) :
    t.visibleSuffix F = s.visibleSuffix E := by
  obtain ⟨cs, o, hm, ho, rfl⟩ := h.elim
  unfold St.visibleSuffix
  rw [SameMojis.len (s := s) (t := { s with buf := cs, out := o }) hm]
  by_cases hp : E.predictColor.1 = []
  · rw [if_pos hp, if_pos (hE.on.mpr hp)]
  · rw [if_neg hp, if_neg (mt hE.on.mp hp)]
    rfl

theorem Twin.viewStart {s t : St} (h : Twin vis s t) : t.viewStart = s.viewStart := by rw [h.2.1]
theorem Twin.cursor {s t : St} (h : Twin vis s t) : t.cursor = s.cursor := by rw [h.2.1]
theorem Twin.suffix {s t : St} (h : Twin vis s t) : t.suffix = s.suffix := by rw [h.2.1]
theorem Twin.suffixList {s t : St} (h : Twin vis s t) : t.suffixList = s.suffixList := by
  unfold St.suffixList; rw [h.suffix]
theorem Twin.viewWidth {s t : St} (h : Twin vis s t) : t.viewWidth = s.viewWidth := by
  obtain ⟨cs, o, hm, ho, rfl⟩ := h.elim; rfl
theorem Twin.len {s t : St} (h : Twin vis s t) : t.len = s.len := h.1.len
theorem Twin.text {s t : St} (h : Twin vis s t) : t.text = s.text := h.1.text
theorem Twin.undoes {s t : St} (h : Twin vis s t) : t.undoes = s.undoes := by rw [h.2.1]
theorem Twin.clip {s t : St} (h : Twin vis s t) : t.clip = s.clip := by rw [h.2.1]
theorem Twin.input {s t : St} (h : Twin vis s t) : t.input = s.input := by rw [h.2.1]
theorem Twin.pending {s t : St} (h : Twin vis s t) : t.pending = s.pending := by rw [h.2.1]
theorem Twin.histPtr {s t : St} (h : Twin vis s t) : t.histPtr = s.histPtr := by rw [h.2.1]
theorem Twin.modHist {s t : St} (h : Twin vis s t) : t.modHist = s.modHist := by rw [h.2.1]
theorem Twin.promptN {s t : St} (h : Twin vis s t) : t.promptN = s.promptN := by rw [h.2.1]
theorem Twin.termWidth {s t : St} (h : Twin vis s t) : t.termWidth = s.termWidth := by rw [h.2.1]

theorem both_repaintNoSuffix (hE : Dressed vis E F) {s t : St} (h : Twin vis s t) :
    Both vis (Twin vis) (repaintNoSuffix E s) (repaintNoSuffix F t) := by
  unfold repaintNoSuffix
  refine both_bind (both_getView2 hE h) fun a c hac => ?_
  subst hac
  obtain ⟨n, w⟩ := c
  dsimp only
  have h := twin_gotoHead h
  rw [h.viewStart]
  refine both_bind (both_puts hE h _ _) fun s t h => ?_
  refine both_bind (Q := Twin vis) ?_ fun s t h => ?_
  · rw [h.suffixList]
    refine both_ite (by rw [Ne, hE.on]) (fun _ => ?_) (fun _ => h)
    have h := twin_emit_eq h hE.seePredict.1
    rw [hE.cfg, h.viewWidth, twin_visibleSuffix hE h]
    exact both_bind (both_suffixLoop _ _ _ _ h) fun s t h => twin_emit_eq h hE.seePredict.2
  · have h := twin_gotoHead (twin_eraseline h)
    rw [h.viewStart, h.cursor]
    exact both_puts hE h _ _

theorem both_repaint (hE : Dressed vis E F) {s t : St} (h : Twin vis s t) :
    Both vis (Twin vis) (repaint E s) (repaint F t) := both_repaintNoSuffix hE (twin_updateSuffix hE h)

theorem both_replaceAndRepaint (hE : Dressed vis E F) {s t : St} (h : Twin vis s t) (pos : Int)
    (str : Bytes) : Both vis (Twin vis) (replaceAndRepaint E s pos str) (replaceAndRepaint F t pos str) := by
  unfold replaceAndRepaint
  rw [h.cursor]
  refine both_bind (both_deleteCells hE h _ _) fun a c hac => ?_
  refine both_bind (both_insertString hE hac.1 _ _) fun a c hac => ?_
  obtain ⟨s, i⟩ := a
  obtain ⟨t, j⟩ := c
  obtain ⟨h, rfl⟩ : Twin vis s t ∧ j = i := hac
  dsimp only
  refine both_repaint hE (twin_resetViewStart hE (twin_joinUndo ?_))
  obtain ⟨cs, o, hm, ho, rfl⟩ := h.elim
  exact ⟨hm, rfl, ho⟩

theorem both_insertAndRepaint (hE : Dressed vis E F) {s t : St} (h : Twin vis s t) (str : Bytes) :
    Both vis (Twin vis) (insertAndRepaint E s str) (insertAndRepaint F t str) := by
  unfold insertAndRepaint
  rw [h.cursor]
  exact both_replaceAndRepaint hE h _ _

theorem both_repaintAfterPrompt (hE : Dressed vis E F) {s t : St} (h : Twin vis s t) :
    Both vis (Twin vis) (repaintAfterPrompt E s) (repaintAfterPrompt F t) :=
  both_repaint hE (twin_resetViewStart hE h)

/-- The prompts of two such editors. -/
theorem Dressed.prompts (hE : Dressed vis E F) : (E.prompt = none ∧ F.prompt = none) ∨
    ∃ p q, E.prompt = some p ∧ F.prompt = some q := by
  have := hE.prompt
  cases hp : E.prompt <;> cases hq : F.prompt
  · exact .inl ⟨rfl, rfl⟩
  · rw [hp, hq] at this; cases this
  · rw [hp, hq] at this; cases this
  · exact .inr ⟨_, _, rfl, rfl⟩

theorem twin_callPromptWriter (hE : Dressed vis E F) {s t : St} (h : Twin vis s t) :
    (callPromptWriter F t).1 = (callPromptWriter E s).1 ∧
      Twin vis (callPromptWriter E s).2 (callPromptWriter F t).2 := by
  obtain ⟨cs, o, hm, ho, rfl⟩ := h.elim
  unfold callPromptWriter
  rcases hE.prompts with ⟨e, f⟩ | ⟨p, q, e, f⟩
  · rw [e, f]; exact ⟨rfl, twin_emit h _⟩
  · rw [e, f]
    exact ⟨hE.width p q e f _, twin_emit_eq (s := { s with promptN := s.promptN + 1 })
      (t := { s with buf := cs, out := o, promptN := s.promptN + 1 })
      ⟨hm, rfl, ho⟩ (hE.seePrompt p q e f _).1⟩

theorem both_repaintAll (hE : Dressed vis E F) {s t : St} (h : Twin vis s t) :
    Both vis (Twin vis) (repaintAll E s) (repaintAll F t) := by
  unfold repaintAll
  have h := twin_callPromptWriter hE (twin_emit h .flush)
  dsimp only
  rw [h.1]
  refine both_repaint hE ?_
  obtain ⟨cs, o, hm, ho, e⟩ := h.2.elim
  rw [e]
  exact ⟨hm, rfl, ho⟩

theorem both_repaintLastLine (hE : Dressed vis E F) {s t : St} (h : Twin vis s t) :
    Both vis (Twin vis) (repaintLastLine E s) (repaintLastLine F t) := by
  unfold repaintLastLine
  have h := twin_emit h .flush
  generalize s.emit .flush = s at h
  generalize t.emit .flush = t at h
  obtain ⟨cs, o, hm, ho, rfl⟩ := h.elim
  rcases hE.prompts with ⟨e, f⟩ | ⟨p, q, e, f⟩
  · rw [e, f]; exact both_repaint hE (twin_emit h _)
  · rw [e, f]
    exact both_repaint hE (twin_emit_eq (s := { s with promptN := s.promptN + 1 })
      ⟨hm, rfl, ho⟩ (hE.seePrompt p q e f _).2)

end funs

end Readline
