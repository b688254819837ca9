import Verif.Spec.Row
import Verif.Proof.Tabs
import Verif.Proof.RefineCall
/-!
# What drawing does to the row
-/
namespace Readline
open Spec

variable {C : Cfg} {lit : Bytes → Row → Row}

theorem columns_eq (C : Cfg) (ms : List Moji) : columns C ms = mojisWidth C ms := by
  induction ms with
  | nil => rfl
  | cons m ms ih => simp only [columns, mojisWidth, List.map_cons, List.sum_cons] at *; rw [ih]

theorem columns_append (C : Cfg) (a c : List Moji) : columns C (a ++ c) = columns C a + columns C c := by
  simp only [columns_eq, mojisWidth_append]

/-- All units have a width that is not negative. -/
def Wide0 (C : Cfg) (ms : List Moji) : Prop := ∀ m ∈ ms, 0 ≤ m.width C

theorem Wide0.columns {ms : List Moji} (h : Wide0 C ms) : 0 ≤ columns C ms := by
  induction ms with
  | nil => exact Int.le_refl _
  | cons m ms ih =>
    have h1 := h m (by simp)
    have h2 := ih fun x hx => h x (by simp [hx])
    show 0 ≤ m.width C + Spec.columns C ms
    omega

theorem Wide0.append_left {a c : List Moji} (h : Wide0 C (a ++ c)) : Wide0 C a := fun m hm => h m (by simp [hm])
theorem Wide0.append_right {a c : List Moji} (h : Wide0 C (a ++ c)) : Wide0 C c := fun m hm => h m (by simp [hm])
theorem Wide0.append {a c : List Moji} (h : Wide0 C a) (h' : Wide0 C c) : Wide0 C (a ++ c) := by
  intro m hm
  rcases List.mem_append.mp hm with hm | hm
  · exact h m hm
  · exact h' m hm

theorem layout_outside {ms : List Moji} (h : Wide0 C ms) {start x : Int}
    (hx : x < start ∨ start + columns C ms ≤ x) : layout C ms start x = none := by
  induction ms generalizing start with
  | nil => rfl
  | cons m ms ih =>
    have h1 := h m (by simp)
    have h2 : Wide0 C ms := fun y hy => h y (by simp [hy])
    have h3 := h2.columns
    have e : columns C (m :: ms) = m.width C + columns C ms := rfl
    rw [e] at hx
    rw [layout, if_neg (by omega)]
    exact ih h2 (by omega)

theorem layout_append {ms ns : List Moji} (hm : Wide0 C ms) (hn : Wide0 C ns) (start x : Int) :
    layout C (ms ++ ns) start x =
      if x < start + columns C ms then layout C ms start x
      else layout C ns (start + columns C ms) x := by
  induction ms generalizing start with
  | nil =>
    simp only [List.nil_append, columns, Int.add_zero]
    split
    · rename_i h
      exact layout_outside hn (Or.inl h)
    · rfl
  | cons m ms ih =>
    have h1 := hm m (by simp)
    have h2 : Wide0 C ms := fun y hy => hm y (by simp [hy])
    have h3 := h2.columns
    have e : columns C (m :: ms) = m.width C + columns C ms := rfl
    rw [List.cons_append, layout, e, layout, ih h2]
    by_cases hx : start ≤ x ∧ x < start + m.width C
    · rw [if_pos hx, if_pos (by omega), if_pos hx]
    · rw [if_neg hx, if_neg hx]
      have e2 : start + m.width C + columns C ms = start + (m.width C + columns C ms) := by omega
      rw [e2]

/-- Printing units one after the other. -/
def Spec.Row.puts (C : Cfg) (r : Row) (ms : List Moji) : Row := ms.foldl (Row.put C) r

theorem puts_append (r : Row) (a c : List Moji) : r.puts C (a ++ c) = (r.puts C a).puts C c := by
  simp [Row.puts]

theorem puts_col (r : Row) (ms : List Moji) : (r.puts C ms).col = r.col + columns C ms := by
  induction ms generalizing r with
  | nil => simp [Row.puts, columns]
  | cons m ms ih =>
    show ((r.put C m).puts C ms).col = _
    rw [ih]
    show r.col + m.width C + _ = r.col + (m.width C + _)
    omega

theorem puts_cells {ms : List Moji} (h : Wide0 C ms) (r : Row) (x : Int) :
    (r.puts C ms).cells x =
      if r.col ≤ x ∧ x < r.col + columns C ms then layout C ms r.col x else r.cells x := by
  induction ms generalizing r with
  | nil =>
    rw [if_neg]
    · rfl
    · simp only [columns]; omega
  | cons m ms ih =>
    have h1 := h m (by simp)
    have h2 : Wide0 C ms := fun y hy => h y (by simp [hy])
    have h3 := h2.columns
    have e : columns C (m :: ms) = m.width C + columns C ms := rfl
    show ((r.put C m).puts C ms).cells x = _
    rw [ih h2, e, layout]
    show (if r.col + m.width C ≤ x ∧ x < r.col + m.width C + columns C ms then _ else
      if r.col ≤ x ∧ x < r.col + m.width C then _ else r.cells x) = _
    by_cases ha : r.col + m.width C ≤ x ∧ x < r.col + m.width C + columns C ms
    · rw [if_pos ha, if_pos (by omega), if_neg (by omega)]
      rfl
    · rw [if_neg ha]
      by_cases hc : r.col ≤ x ∧ x < r.col + m.width C
      · rw [if_pos hc, if_pos (by omega), if_pos hc]
      · rw [if_neg hc, if_neg (by omega)]

theorem puts_high {ms : List Moji} (h : Wide0 C ms) (r : Row) {lim : Int} (h0 : r.high ≤ lim)
    (h1 : r.col + columns C ms ≤ lim) : (r.puts C ms).high ≤ lim := by
  induction ms generalizing r with
  | nil => exact h0
  | cons m ms ih =>
    have h2 : Wide0 C ms := fun y hy => h y (by simp [hy])
    have h3 := h2.columns
    have e : columns C (m :: ms) = m.width C + columns C ms := rfl
    rw [e] at h1
    show ((r.put C m).puts C ms).high ≤ lim
    apply ih h2
    · show max r.high (r.col + m.width C) ≤ lim
      omega
    · show r.col + m.width C + _ ≤ lim
      omega

theorem run_append (r : Row) (a c : List Tok) : r.run C lit (a ++ c) = (r.run C lit a).run C lit c := by
  simp [Row.run]

/-- From `s` to `s'` something is printed that changes the row by `f`. -/
def Draws (C : Cfg) (lit : Bytes → Row → Row) (s s' : St) (f : Row → Row) : Prop :=
  ∃ t, s'.out = s.out ++ t ∧ ∀ r, Row.run C lit r t = f r

namespace Draws
variable {s s1 s2 : St} {f g : Row → Row}

theorem refl : Draws C lit s s id := ⟨[], by simp, fun _ => rfl⟩

theorem trans (h1 : Draws C lit s s1 f) (h2 : Draws C lit s1 s2 g) :
    Draws C lit s s2 (fun r => g (f r)) := by
  obtain ⟨t1, e1, r1⟩ := h1
  obtain ⟨t2, e2, r2⟩ := h2
  exact ⟨t1 ++ t2, by rw [e2, e1, List.append_assoc], fun r => by rw [run_append, r1, r2]⟩

theorem emit (h : Draws C lit s s1 f) (t : Tok) :
    Draws C lit s (s1.emit t) (fun r => (f r).receive C lit t) :=
  h.trans ⟨[t], rfl, fun _ => rfl⟩

theorem of_out (h : Draws C lit s s1 f) (e : s2.out = s1.out := by rfl) : Draws C lit s s2 f := by
  obtain ⟨t, e1, r⟩ := h
  exact ⟨t, e.trans e1, r⟩

theorem congr (h : Draws C lit s s1 f) (e : ∀ r, f r = g r) : Draws C lit s s1 g := by
  obtain ⟨t, e1, r⟩ := h
  exact ⟨t, e1, fun x => (r x).trans (e x)⟩

end Draws

theorem printMoji_draws {s s' : St} {m : Moji} (h : printMoji s m = .ok s') :
    Draws C lit s s' (fun r => r.put C m) := by
  unfold printMoji at h
  split at h
  · cases h
  · cases h; exact ⟨[_], rfl, fun _ => rfl⟩

theorem putsLoop_draws {cs : List Cell} {c c' : Color} {s s' : St} (h : putsLoop cs c s = .ok (s', c')) :
    Draws C lit s s' (fun r => r.puts C (cs.map Cell.moji)) := by
  induction cs generalizing c s with
  | nil => cases h; exact Draws.refl
  | cons x cs ih =>
    rw [putsLoop] at h
    obtain ⟨s1, h1, h2⟩ := bind_ok.mp h
    have hd := printMoji_draws (C := C) (lit := lit) h1
    have hd' : Draws C lit s s1 (fun r => r.put C x.moji) := by
      split at hd
      · exact ((Draws.refl (C := C) (lit := lit) (s := s)).emit (.sgr x.color)).trans hd
      · exact hd
    exact hd'.trans (ih h2)

/-- The buffer after a repaint. -/
def refreshed (E : Env) (s : St) : List Cell := refreshLoop E.cfg E.coloring s.cursor E.coloring.init 0 0 s.buf

theorem refreshColor_eq {E : Env} {s s' : St} (h : refreshColor E s = .ok s') :
    s' = { s with buf := refreshed E s } := by
  unfold refreshColor at h
  split at h <;> cases h
  rfl

theorem printMoji_eq {s s' : St} {m : Moji} (h : printMoji s m = .ok s') :
    ∃ t, s' = { s with out := s.out ++ t } := by
  unfold printMoji at h
  split at h <;> cases h
  exact ⟨_, rfl⟩

theorem putsLoop_eq {cs : List Cell} {c c' : Color} {s s' : St} (h : putsLoop cs c s = .ok (s', c')) :
    ∃ t, s' = { s with out := s.out ++ t } := by
  induction cs generalizing c s with
  | nil => cases h; exact ⟨[], by simp⟩
  | cons x cs ih =>
    rw [putsLoop] at h
    obtain ⟨s1, h1, h2⟩ := bind_ok.mp h
    obtain ⟨t1, e1⟩ := printMoji_eq h1
    obtain ⟨t2, e2⟩ := ih h2
    split at e1
    · exact ⟨[.sgr x.color] ++ t1 ++ t2, by rw [e2, e1]; simp [St.emit]⟩
    · exact ⟨t1 ++ t2, by rw [e2, e1]; simp⟩

/-- `puts` refreshes the buffer and prints the cells `lo..hi`. -/
theorem puts_draws {E : Env} {s s' : St} {lo hi : Int} (h : puts E s lo hi = .ok s') :
    (∃ o, s' = { s with buf := refreshed E s, out := o }) ∧
    Draws E.cfg lit s s'
      (fun r => r.puts E.cfg (((s'.buf.take hi.toNat).drop lo.toNat).map Cell.moji)) := by
  unfold puts at h
  obtain ⟨x, h0, h⟩ := bind_ok.mp h
  obtain ⟨s1, h1, h⟩ := bind_ok.mp h
  obtain ⟨cs, h2, h⟩ := bind_ok.mp h
  obtain ⟨⟨s2, col⟩, h3, h⟩ := bind_ok.mp h
  have hs := (slice_ok h2).2.2.2
  have e1 := refreshColor_eq h1
  obtain ⟨t, e2⟩ := putsLoop_eq h3
  have hd := putsLoop_draws (C := E.cfg) (lit := lit) h3
  have hfin := pure_ok.mp h
  subst hs
  have hd1 : Draws E.cfg lit s s2
      (fun r => r.puts E.cfg (((s1.buf.take hi.toNat).drop lo.toNat).map Cell.moji)) := by
    obtain ⟨t, e, r⟩ := hd
    exact ⟨t, by rw [e, e1], r⟩
  have hb : s2.buf = s1.buf := by rw [e2]
  have hb' : s'.buf = s2.buf := by rw [← hfin]; split <;> rfl
  constructor
  · rw [← hfin, e2, e1]
    split
    · exact ⟨_, rfl⟩
    · exact ⟨_, rfl⟩
  · rw [hb', hb, ← hfin]
    split
    · exact hd1.emit (.sgr _)
    · exact hd1

/-! ## Tabs in their columns -/

/-- Every tab knows its column. -/
def Aligned (C : Cfg) (ms : List Moji) : Prop :=
  ∀ pre p post, ms = pre ++ .tab p :: post → p = toInt16 (columns C pre)

theorem Aligned.nil : Aligned C [] := by
  intro pre p post h
  simp at h

theorem Aligned.prefix {a c : List Moji} (h : Aligned C (a ++ c)) : Aligned C a := by
  intro pre p post e
  exact h pre p (post ++ c) (by rw [e]; simp)

theorem refreshed_aligned (E : Env) (s : St) : Aligned E.cfg ((refreshed E s).map Cell.moji) := by
  intro pre p post h
  obtain ⟨l1, l2, h1, h2, h3⟩ := List.map_eq_append_iff.mp h
  obtain ⟨x, l3, h4, h5, h6⟩ := List.map_eq_cons_iff.mp h3
  subst h4
  have := refreshLoop_tabs E.cfg E.coloring s.cursor E.coloring.init 0 0 s.buf l1 x l3 p (by
    rw [show toInt16 0 = 0 by decide]; exact h1) h5
  rw [this, cellsWidth_mojis, columns_eq, h2]
  simp

theorem refreshCell_id (C : Cfg) (K : Coloring) (σ : K.σ) (a : Int) (c : Cell)
    (h : ∀ p, c.moji = .tab p → p = toInt16 a) :
    (refreshCell C K σ (toInt16 a) c).2.2.moji = c.moji ∧
      (refreshCell C K σ (toInt16 a) c).2.1 = toInt16 (a + c.moji.width C) := by
  have hp := refreshCell_pos C K σ (toInt16 a) c
  have hm : (refreshCell C K σ (toInt16 a) c).2.2.moji = c.moji := by
    unfold refreshCell
    split
    · rename_i p e
      rw [e, h p e]
    · split <;> rfl
  refine ⟨hm, ?_⟩
  rw [hp.1, hm, toInt16_add]

theorem refreshLoop_id (C : Cfg) (K : Coloring) (cursor : Int) (σ : K.σ) (i a : Int) (cs : List Cell)
    (h : ∀ pre p post, cs.map Cell.moji = pre ++ .tab p :: post → p = toInt16 (a + columns C pre)) :
    (refreshLoop C K cursor σ i (toInt16 a) cs).map Cell.moji = cs.map Cell.moji := by
  induction cs generalizing σ i a with
  | nil => rfl
  | cons c cs ih =>
    rw [refreshLoop]
    dsimp only
    generalize (if i = cursor then (K.next σ cursorDummyRune).1 else σ) = σ1
    obtain ⟨h1, h2⟩ := refreshCell_id C K σ1 a c (by
      intro p hp
      have := h [] p (cs.map Cell.moji) (by simp [hp])
      simpa [columns] using this)
    generalize refreshCell C K σ1 (toInt16 a) c = rc at *
    obtain ⟨σ', p', c'⟩ := rc
    dsimp only at h1 h2 ⊢
    rw [List.map_cons, List.map_cons, h1, h2, ih]
    intro pre p post e
    have := h (c.moji :: pre) p post (by rw [List.map_cons, e]; rfl)
    rw [this]
    congr 1
    show a + (c.moji.width C + _) = _
    omega

/-- Refreshing changes no unit when the tabs are in their columns already. -/
theorem refreshed_id {E : Env} {s : St} (h : Aligned E.cfg (s.buf.map Cell.moji)) :
    (refreshed E s).map Cell.moji = s.buf.map Cell.moji := by
  have := refreshLoop_id E.cfg E.coloring s.cursor E.coloring.init 0 0 s.buf (by
    intro pre p post e
    rw [Int.zero_add]
    exact h pre p post e)
  rw [show toInt16 0 = 0 by decide] at this
  exact this

theorem refreshed_length (E : Env) (s : St) : (refreshed E s).length = s.buf.length := by
  have := congrArg List.length
    (refreshLoop_norm E.cfg E.coloring s.cursor E.coloring.init 0 0 s.buf)
  simp only [List.length_map] at this
  exact this

/-- After `puts` the tabs are in their columns. -/
theorem puts_aligned {E : Env} {s s' : St} {lo hi : Int} (h : puts E s lo hi = .ok s') :
    Aligned E.cfg (s'.buf.map Cell.moji) := by
  obtain ⟨o, e⟩ := (puts_draws (lit := fun _ r => r) h).1
  rw [e]
  exact refreshed_aligned E s

theorem repaintNoSuffix_aligned {E : Env} {s s' : St} (h : repaintNoSuffix E s = .ok s') :
    Aligned E.cfg (s'.buf.map Cell.moji) := by
  unfold repaintNoSuffix at h
  obtain ⟨⟨n, w⟩, h0, h⟩ := bind_ok.mp h
  obtain ⟨s1, h1, h⟩ := bind_ok.mp h
  obtain ⟨s2, h2, h⟩ := bind_ok.mp h
  exact puts_aligned h

theorem repaint_aligned {E : Env} {s s' : St} (h : repaint E s = .ok s') :
    Aligned E.cfg (s'.buf.map Cell.moji) := repaintNoSuffix_aligned h

end Readline
