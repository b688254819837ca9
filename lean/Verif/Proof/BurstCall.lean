import Verif.Proof.Burst
import Verif.Proof.Steady
import Verif.Proof.VisMove
/-!
# What the commands print

`Frugal … g s`: from `s0` to `s` the output between two waits never counts more than `4 * D`, and
since the last wait at most `g`.  The structure of the proofs is that of `Proof/InkCall.lean`.
-/
namespace Readline
open Spec

/-- The numbers of a session: units have a width, a row takes `m` units, and drawing a row counts
at most `D`. -/
structure Gauge (E : Env) (W : Int) (m a b D : Nat) : Prop where
  broad : Broad E.cfg
  one : 1 ≤ m
  row : W - 4 ≤ m
  draw : (a + b) * m + b = D

structure Frugal (E : Env) (W : Int) (a b D : Nat) (s0 : St) (g : Nat) (s : St) : Prop where
  width : s.termWidth = W
  top : 0 ≤ s.topColumn
  stout : Stout E.cfg s.buf
  pred : ∀ m ∈ s.suffixList, 1 ≤ m.width E.cfg
  out : ∃ t, s.out = s0.out ++ t ∧ since a b t ≤ g ∧ Peak a b (4 * D) t

/-- The cursor is not further from the first visible unit than a row is wide. -/
def Near (m : Nat) (s : St) : Prop := s.viewStart ≤ s.cursor ∧ s.cursor ≤ s.viewStart + m

section
variable {E : Env} {W : Int} {m a b D g : Nat} {s0 s s1 : St}

theorem Frugal.of (h : Frugal E W a b D s0 g s) (hb : ∀ c ∈ s1.buf, c ∈ s.buf := by exact fun _ h => h)
    (ho : s1.out = s.out := by rfl) (hw : s1.termWidth = s.termWidth := by rfl)
    (ht : s1.topColumn = s.topColumn := by rfl) (hs : s1.suffix = s.suffix := by rfl) :
    Frugal E W a b D s0 g s1 :=
  ⟨hw.trans h.width, by rw [ht]; exact h.top, h.stout.sub hb, by
    unfold St.suffixList; rw [hs]; exact h.pred, by rw [ho]; exact h.out⟩

theorem Frugal.buf (h : Frugal E W a b D s0 g s) (hb : Stout E.cfg s1.buf)
    (ho : s1.out = s.out := by rfl) (hw : s1.termWidth = s.termWidth := by rfl)
    (ht : s1.topColumn = s.topColumn := by rfl) (hs : s1.suffix = s.suffix := by rfl) :
    Frugal E W a b D s0 g s1 :=
  ⟨hw.trans h.width, by rw [ht]; exact h.top, hb, by
    unfold St.suffixList; rw [hs]; exact h.pred, by rw [ho]; exact h.out⟩

theorem Frugal.le {g' : Nat} (h : Frugal E W a b D s0 g s) (hg : g ≤ g') : Frugal E W a b D s0 g' s := by
  obtain ⟨t, h1, h2, h3⟩ := h.out
  exact { h with out := ⟨t, h1, by omega, h3⟩ }

/-- Something that does not count. -/
theorem Frugal.emit {x : Tok} (h : Frugal E W a b D s0 g s) (hx : x.cost a b = 0 := by rfl) :
    Frugal E W a b D s0 g (s.emit x) := by
  obtain ⟨t, h1, h2, h3⟩ := h.out
  refine ⟨h.width, h.top, h.stout, h.pred, t ++ [x], ?_, ?_, ?_⟩
  · show s.out ++ _ = _
    rw [h1, List.append_assoc]
  · rw [since_snoc]
    split <;> omega
  · by_cases he : x = .await
    · subst he; exact h3.wait
    · refine h3.add (by simp [Ne.symm he]) ?_
      have := h3 t (List.prefix_refl t)
      simp only [weigh, List.map_cons, List.map_nil, List.sum_cons, List.sum_nil]
      omega

/-- A wait. -/
theorem Frugal.wait (h : Frugal E W a b D s0 g s) : Frugal E W a b D s0 0 (s.emit .await) := by
  obtain ⟨t, h1, h2, h3⟩ := h.out
  refine ⟨h.width, h.top, h.stout, h.pred, t ++ [.await], ?_, ?_, h3.wait⟩
  · show s.out ++ _ = _
    rw [h1, List.append_assoc]
  · rw [since_snoc, if_pos rfl]; exact Nat.le_refl 0

/-- Something that counts. -/
theorem Frugal.add {k : Nat} {u : List Tok} (h : Frugal E W a b D s0 g s) (hu : Tok.await ∉ u)
    (hk : weigh a b u ≤ k) (hg : g + k ≤ 4 * D) (hb : Stout E.cfg s1.buf) (ho : s1.out = s.out ++ u)
    (hw : s1.termWidth = s.termWidth := by rfl) (ht : s1.topColumn = s.topColumn := by rfl)
    (hs : s1.suffix = s.suffix := by rfl) : Frugal E W a b D s0 (g + k) s1 := by
  obtain ⟨t, h1, h2, h3⟩ := h.out
  refine ⟨hw.trans h.width, by rw [ht]; exact h.top, hb, by
    unfold St.suffixList; rw [hs]; exact h.pred, t ++ u, ?_, ?_, h3.add hu (by omega)⟩
  · rw [ho, h1, List.append_assoc]
  · rw [since_append _ hu]; omega

theorem Frugal.refl (G : Gauge E W m a b D) (hw : s.termWidth = W) (ht : 0 ≤ s.topColumn) (hb : Stout E.cfg s.buf)
    (hs : ∀ m ∈ s.suffixList, 1 ≤ m.width E.cfg) : Frugal E W a b D s 0 s :=
  ⟨hw, ht, hb, hs, [], by simp, Nat.le_refl 0, .nil⟩

theorem Frugal.view (G : Gauge E W m a b D) (h : Frugal E W a b D s0 g s) : s.viewWidth - 1 ≤ m := by
  have := h.width
  have := h.top
  have := G.row
  unfold St.viewWidth
  omega

theorem putsLoop_count {cs : List Cell} {c c' : Color} {s s' : St} (h : putsLoop cs c s = .ok (s', c')) :
    ∃ t, s' = { s with out := s.out ++ t } ∧ Tok.await ∉ t ∧ weigh a b t ≤ (a + b) * cs.length := by
  induction cs generalizing c s with
  | nil => cases h; exact ⟨[], by simp, by simp, Nat.le_refl 0⟩
  | cons x cs ih =>
    rw [putsLoop] at h
    obtain ⟨s1, h1, h2⟩ := bind_ok.mp h
    obtain ⟨t2, e2, n2, w2⟩ := ih h2
    unfold printMoji at h1
    split at h1
    · cases h1
    · cases h1
      have hm : (a + b) * (x :: cs).length = (a + b) * cs.length + (a + b) := by
        rw [List.length_cons, Nat.mul_succ]
      split at e2
      · refine ⟨[.sgr x.color] ++ [.glyph x.moji] ++ t2, by rw [e2]; simp [St.emit], by simp [n2], ?_⟩
        rw [weigh_append]
        simp only [weigh, List.map_cons, List.map_nil, List.sum_cons, List.sum_nil, Tok.cost, List.cons_append,
          List.nil_append] at *
        omega
      · refine ⟨[.glyph x.moji] ++ t2, by rw [e2]; simp [St.emit], by simp [n2], ?_⟩
        rw [weigh_append]
        simp only [weigh, List.map_cons, List.map_nil, List.sum_cons, List.sum_nil, Tok.cost] at *
        omega

/-- `puts` of some cells. -/
theorem puts_count {s' : St} {lo hi : Int} (h : puts E s lo hi = .ok s') :
    0 ≤ lo ∧ lo ≤ hi ∧ hi ≤ s.len ∧
    ∃ t, s' = { s with buf := refreshed E s, out := s.out ++ t } ∧ Tok.await ∉ t ∧
      weigh a b t ≤ (a + b) * (hi - lo).toNat + b := by
  unfold puts at h
  obtain ⟨x, h0, h⟩ := bind_ok.mp h
  obtain ⟨s1, h1, h⟩ := bind_ok.mp h
  obtain ⟨cs, h2, h⟩ := bind_ok.mp h
  obtain ⟨⟨s2, col⟩, h3, h⟩ := bind_ok.mp h
  obtain ⟨a1, a2, a3, _⟩ := slice_ok h0
  obtain ⟨_, _, b3, b4⟩ := slice_ok h2
  have e1 := refreshColor_eq h1
  obtain ⟨t, e2, n2, w2⟩ := putsLoop_count (a := a) (b := b) h3
  have hl : cs.length = (hi - lo).toNat := by
    rw [b4, List.length_drop, List.length_take]
    omega
  rw [hl] at w2
  have hfin := pure_ok.mp h
  refine ⟨a1, a2, a3, ?_⟩
  split at hfin
  · refine ⟨t ++ [.sgr E.coloring.defaultColor], by rw [← hfin, e2, e1]; simp [St.emit], by simp [n2], ?_⟩
    rw [weigh_append]
    simp only [weigh, List.map_cons, List.map_nil, List.sum_cons, List.sum_nil, Tok.cost] at *
    omega
  · exact ⟨t, by rw [← hfin, e2, e1], n2, by omega⟩

theorem Gauge.puts_le (G : Gauge E W m a b D) {n : Nat} (h : n ≤ m) : (a + b) * n + b ≤ D := by
  have h1 := Nat.mul_le_mul_left (a + b) h
  have h2 := G.draw
  omega

theorem refreshed_len (E : Env) (s : St) : (refreshed E s).length = s.buf.length := refreshLoop_len _ _ _ _ _ _ _

theorem puts_f (G : Gauge E W m a b D) (h : Frugal E W a b D s0 g s) {lo hi : Int} (hn : hi ≤ lo + m) (hg : g + D ≤ 4 * D) :
    Wp Any (puts E s lo hi) (fun s' => Frugal E W a b D s0 (g + D) s' ∧ s'.cursor = s.cursor ∧
      s'.viewStart = s.viewStart ∧ s'.len = s.len ∧ 0 ≤ lo ∧ lo ≤ hi ∧ hi ≤ s.len) := by
  refine Wp.of_ok fun s' hs' => ?_
  obtain ⟨h1, h2, h3, t, rfl, hn', hw⟩ := puts_count (a := a) (b := b) hs'
  have hle := G.puts_le (n := (hi - lo).toNat) (by omega)
  refine ⟨h.add hn' (by omega) hg (h.stout.refresh _ _ _ _ _) rfl, rfl, rfl, ?_, h1, h2, h3⟩
  show ((refreshed E s).length : Int) = _
  rw [refreshed_len]; rfl

theorem getView2_view {p : Nat × Int} (h : getView2 E s = .ok p) :
    0 ≤ s.viewStart ∧ s.viewStart ≤ s.cursor ∧ s.cursor ≤ s.len ∧
      p = viewLoop E.cfg s.viewWidth ((s.buf.take s.len.toNat).drop s.viewStart.toNat) 0 0 := by
  unfold getView2 getView at h
  obtain ⟨q, h1, h⟩ := bind_ok.mp h
  obtain ⟨v, h2, h1⟩ := bind_ok.mp h1
  obtain ⟨w, h3, h⟩ := bind_ok.mp h
  cases pure_ok.mp h1
  obtain ⟨a1, a2, a3, a4⟩ := slice_ok h3
  obtain ⟨_, _, _, b4⟩ := slice_ok h2
  exact ⟨a1, a2, a3, by rw [← pure_ok.mp h, b4]⟩

theorem view_count (h : Frugal E W a b D s0 g s) {p : Nat × Int} (hp : getView2 E s = .ok p) :
    (p.1 : Int) ≤ p.2 ∧ (p.2 < s.viewWidth ∨ p = (0, 0)) := by
  obtain ⟨_, _, _, rfl⟩ := getView2_view hp
  exact viewLoop_count (h.stout.sub fun c hc => List.mem_of_mem_take (List.mem_of_mem_drop hc)) 0 0 (by simp)

theorem repaintNoSuffix_f (G : Gauge E W m a b D) (h : Frugal E W a b D s0 g s)
    (hn : s.cursor ≤ s.len → s.cursor ≤ s.viewStart + m) (hg : g + 2 * D ≤ 4 * D) :
    Wp Any (repaintNoSuffix E s) (fun s' => Frugal E W a b D s0 (g + 2 * D) s' ∧ Near m s') := by
  refine Wp.of_ok fun s' hs' => ?_
  unfold repaintNoSuffix at hs'
  obtain ⟨⟨n, w⟩, hv, hs'⟩ := bind_ok.mp hs'
  obtain ⟨v1, v2, v3, _⟩ := getView2_view hv
  have hc := view_count h hv
  have hvw := h.view G
  have hn := hn v3
  dsimp only at hs' hc
  obtain ⟨s1, h1, hs'⟩ := bind_ok.mp hs'
  have f0 : Frugal E W a b D s0 g (gotoHead s) := h.emit
  obtain ⟨_, _, _, t, rfl, hn', hw⟩ := puts_count (a := a) (b := b) h1
  have hnm : n ≤ m := by 
    rcases hc.2 with h | h
    · omega
    · cases h; omega
  have hw' : weigh a b t ≤ (a + b) * n + b := by
    rw [show ((gotoHead s).viewStart + (n : Int) - (gotoHead s).viewStart).toNat = n by omega] at hw
    exact hw
  have last : ∀ s2, Frugal E W a b D s0 (g + D) s2 → s2.cursor = s.cursor → s2.viewStart = s.viewStart →
      puts E (gotoHead (eraseline s2)) (gotoHead (eraseline s2)).viewStart (gotoHead (eraseline s2)).cursor = .ok s' →
      Frugal E W a b D s0 (g + 2 * D) s' ∧ Near m s' := by
    intro s2 f2 c2 v2' hp
    have f3 : Frugal E W a b D s0 (g + D) (gotoHead (eraseline s2)) :=
      (Frugal.emit (x := .eraseEol) f2).emit
    have key := (puts_f G f3 (lo := (gotoHead (eraseline s2)).viewStart) (hi := (gotoHead (eraseline s2)).cursor)
      (by show s2.cursor ≤ s2.viewStart + m; omega) (by omega)).ok hp
    obtain ⟨k1, k2, k3, k4, k5, k6, k7⟩ := key
    refine ⟨k1.le (by omega), ?_⟩
    have k2 : s'.cursor = s2.cursor := k2
    have k3 : s'.viewStart = s2.viewStart := k3
    unfold Near
    omega
  split at hs'
  · obtain ⟨s2, h2, hs'⟩ := bind_ok.mp hs'
    obtain ⟨s3, h3, h2⟩ := bind_ok.mp h2
    cases pure_ok.mp h2
    obtain ⟨l, e, hl⟩ := suffixLoop_count (ms := St.visibleSuffix E _) (by
      intro x hx
      unfold St.visibleSuffix at hx
      split at hx
      · cases hx
      · split at hx
        · cases hx
        · exact h.pred x hx) w h3
    refine last (s3.emit (.lit E.predictColor.2)) ?_ (by rw [e]; rfl) (by rw [e]; rfl) hs'
    refine Frugal.emit ?_
    rw [e]
    refine f0.add (u := t ++ [.lit E.predictColor.1] ++ l.map Tok.glyph) ?_ ?_ (by omega) (h.stout.refresh _ _ _ _ _) ?_
    · simp [hn']
    · rw [weigh_append, weigh_append, weigh_glyphs]
      have hk : n + l.length ≤ m := by
        rcases hl with rfl | hl
        · simpa using hnm
        · have hl : w + l.length < s.viewWidth := hl
          omega
      have h1 := Nat.mul_le_mul_left (a + b) hk
      have h2 := G.draw
      rw [Nat.mul_add, Nat.add_mul _ _ l.length] at h1
      have h3 : weigh a b [Tok.lit E.predictColor.1] = 0 := rfl
      omega
    · simp [St.emit]
  · obtain ⟨s2, h2, hs'⟩ := bind_ok.mp hs'
    cases pure_ok.mp h2
    refine last { gotoHead s with buf := refreshed E (gotoHead s), out := (gotoHead s).out ++ t } ?_ rfl rfl hs'
    exact f0.add hn' (by have := G.puts_le hnm; omega) (by omega) (h.stout.refresh _ _ _ _ _) rfl

theorem updateSuffix_f (G : Gauge E W m a b D) (h : Frugal E W a b D s0 g s) :
    Frugal E W a b D s0 g (updateSuffix E s) := by
  unfold updateSuffix
  split
  · exact h
  · split
    · exact { h with pred := fun _ hm => nomatch hm }
    · exact { h with pred := stringToMoji_wide G.broad _ }

theorem updateSuffix_pos (E : Env) (s : St) : (updateSuffix E s).cursor = s.cursor ∧
    (updateSuffix E s).viewStart = s.viewStart ∧ (updateSuffix E s).buf = s.buf := by
  unfold updateSuffix
  split
  · exact ⟨rfl, rfl, rfl⟩
  · split <;> exact ⟨rfl, rfl, rfl⟩

theorem repaint_f (G : Gauge E W m a b D) (h : Frugal E W a b D s0 g s)
    (hn : s.cursor ≤ s.len → s.cursor ≤ s.viewStart + m) (hg : g + 2 * D ≤ 4 * D) :
    Wp Any (repaint E s) (fun s' => Frugal E W a b D s0 (g + 2 * D) s' ∧ Near m s') := by
  obtain ⟨h1, h2, h3⟩ := updateSuffix_pos E s
  refine repaintNoSuffix_f G (updateSuffix_f G h) ?_ hg
  unfold St.len
  rw [h1, h2, h3]
  exact hn

/-- Wherever the cursor is set before `ResetViewStart`. -/
theorem reset_f (G : Gauge E W m a b D) (h : Frugal E W a b D s0 g s) :
    (resetViewStart E s).cursor ≤ (resetViewStart E s).len →
      (resetViewStart E s).cursor ≤ (resetViewStart E s).viewStart + m := by
  intro hc
  exact resetOuter_count h.stout (h.view G) hc s.buf 0 0 0 rfl (by omega) (by omega) (by omega) (by omega)

theorem insertString_f (G : Gauge E W m a b D) (h : Frugal E W a b D s0 g s) (pos : Int) (t : Bytes) :
    Wp Any (insertString E s pos t) (fun p => Frugal E W a b D s0 g p.1 ∧ p.1.cursor = s.cursor ∧
      p.1.viewStart = s.viewStart ∧ Stout E.cfg p.2) := by
  unfold insertString insertCells bufInsert
  dsimp only
  split
  · refine ⟨h.buf ?_, rfl, rfl, Stout.mojis G.broad t⟩
    intro c hc
    rw [show _ = sliceInsert s.buf pos.toNat _ from rfl, sliceInsert_eq _ _ _ (by
      rename_i hp; have := hp.2; unfold St.len at this; omega)] at hc
    rcases List.mem_append.mp hc with hc | hc
    · rcases List.mem_append.mp hc with hc | hc
      · exact h.stout c (List.mem_of_mem_take hc)
      · exact Stout.mojis G.broad t c hc
    · exact h.stout c (List.mem_of_mem_drop hc)
  · exact trivial

theorem bufDelete_mem {s : St} {pos : Int} {n : Nat} {l : List Cell} (h : bufDelete s pos n = .ok l) :
    (∀ c ∈ l, c ∈ s.buf) ∧ l.length ≤ s.buf.length := by
  unfold bufDelete at h
  split at h
  · rename_i hp
    have h2 := hp.2
    unfold St.len at h2
    rw [sliceDelete_eq _ _ _ (by omega)] at h
    cases h
    refine ⟨fun c hc => ?_, ?_⟩
    · rcases List.mem_append.mp hc with hc | hc
      · exact List.mem_of_mem_take hc
      · exact List.mem_of_mem_drop hc
    · simp only [List.length_append, List.length_take, List.length_drop]
      omega
  · cases h

theorem deleteCells_f (h : Frugal E W a b D s0 g s) (pos n : Int) :
    Wp Any (deleteCells E s pos n) (fun p => Frugal E W a b D s0 g p.1 ∧ p.1.cursor = s.cursor ∧
      p.1.viewStart = s.viewStart ∧ p.1.len ≤ s.len) := by
  refine Wp.of_ok fun p hp => ?_
  unfold deleteCells at hp
  split at hp
  · cases hp; exact ⟨h, rfl, rfl, Int.le_refl _⟩
  · obtain ⟨x, h1, hp⟩ := bind_ok.mp hp
    obtain ⟨l, h2, hp⟩ := bind_ok.mp hp
    cases pure_ok.mp hp
    obtain ⟨h3, h4⟩ := bufDelete_mem h2
    exact ⟨h.of h3, rfl, rfl, Int.ofNat_le.mpr h4⟩

theorem joinUndo_f (h : Frugal E W a b D s0 g s) : Frugal E W a b D s0 g (joinUndo s) := by
  unfold joinUndo
  split
  · split
    · exact h
    · split
      · exact h
      · split
        · exact h
        · exact h.of
  · exact h

theorem replaceAndRepaint_f (G : Gauge E W m a b D) (h : Frugal E W a b D s0 g s) (pos : Int) (t : Bytes)
    (hg : g + 2 * D ≤ 4 * D) :
    Wp Any (replaceAndRepaint E s pos t) (fun s' => Frugal E W a b D s0 (g + 2 * D) s' ∧ Near m s') := by
  unfold replaceAndRepaint
  refine Wp.seq (deleteCells_f h _ _) fun p h1 => ?_
  obtain ⟨s1, n⟩ := p
  dsimp only
  refine Wp.seq (insertString_f G h1.1 _ _) fun p h2 => ?_
  obtain ⟨s2, ins⟩ := p
  dsimp only
  have : Frugal E W a b D s0 g (joinUndo { s2 with cursor := pos + ins.length }) := joinUndo_f (h2.1.of)
  exact repaint_f G (this.of) (reset_f G this) hg

theorem columnAfter_nonneg {C : Cfg} (hw : ∀ m : Moji, 0 ≤ m.width C) (l : List Moji) (c : Int) (h : 0 ≤ c) :
    0 ≤ Spec.columnAfter C l c := by
  induction l generalizing c with
  | nil => exact h
  | cons x l ih =>
    have := hw (Spec.startingAt c x)
    exact ih _ (by omega)

theorem promptWriter_f (G : Gauge E W m a b D) (h : Frugal E W a b D s0 g s) :
    Frugal E W a b D s0 g { (callPromptWriter E s).2 with topColumn := (callPromptWriter E s).1 } ∧
      (callPromptWriter E s).2.cursor = s.cursor ∧ (callPromptWriter E s).2.viewStart = s.viewStart ∧
      (callPromptWriter E s).2.buf = s.buf := by
  unfold callPromptWriter
  cases E.prompt with
  | none =>
    refine ⟨?_, rfl, rfl, rfl⟩
    have := Frugal.emit (x := .lit [0x0A, 0x3E, 0x20]) h
    exact { this with top := by show (0 : Int) ≤ 2; omega }
  | some p =>
    refine ⟨?_, rfl, rfl, rfl⟩
    have : Frugal E W a b D s0 g ({ s with promptN := s.promptN + 1 }.emit (.lit (p s.promptN))) :=
      Frugal.emit (h.of)
    refine { this with top := ?_ }
    show 0 ≤ (mojiWidthAndCount E.cfg _).1
    rw [C06_width]
    refine columnAfter_nonneg (width_nonneg G.broad.width fun a b ha hb => ?_) _ 0 (by omega)
    have := G.broad.zwj a b ha hb
    omega

theorem repaintAll_f (G : Gauge E W m a b D) (h : Frugal E W a b D s0 g s) (hn : Near m s) (hg : g + 2 * D ≤ 4 * D) :
    Wp Any (repaintAll E s) (fun s' => Frugal E W a b D s0 (g + 2 * D) s' ∧ Near m s') := by
  unfold repaintAll
  dsimp only
  obtain ⟨h1, h2, h3, h4⟩ := promptWriter_f G (Frugal.emit (x := .flush) h)
  refine repaint_f G h1 ?_ hg
  intro _
  show (callPromptWriter E (s.emit .flush)).2.cursor ≤ (callPromptWriter E (s.emit .flush)).2.viewStart + m
  rw [h2, h3]
  exact hn.2

theorem repaintLastLine_f (G : Gauge E W m a b D) (h : Frugal E W a b D s0 g s)
    (hn : s.cursor ≤ s.len → s.cursor ≤ s.viewStart + m) (hg : g + 2 * D ≤ 4 * D) :
    Wp Any (repaintLastLine E s) (fun s' => Frugal E W a b D s0 (g + 2 * D) s' ∧ Near m s') := by
  unfold repaintLastLine
  dsimp only
  cases E.prompt with
  | none => exact repaint_f G ((Frugal.emit (x := .flush) h).emit) hn hg
  | some p => exact repaint_f G (Frugal.emit ((Frugal.emit (x := .flush) h).of)) hn hg

end

/-! ## Commands -/

section
variable {E : Env} {W : Int} {m a b D g : Nat} {s0 s s1 : St}

/-- After a command: at most four rows, and nothing when `ReadLine` is left. -/
def After (E : Env) (W : Int) (m a b D : Nat) (s0 : St) (p : St × Result) : Prop :=
  Frugal E W a b D s0 (4 * D) p.1 ∧ Near m p.1 ∧ (p.2 ≠ .cont → Frugal E W a b D s0 0 p.1)

theorem After.cont (h : Frugal E W a b D s0 g s) (hg : g ≤ 4 * D) (hn : Near m s) :
    After E W m a b D s0 (s, .cont) := ⟨h.le hg, hn, fun h => absurd rfl h⟩

theorem After.leave {r : Result} (h : Frugal E W a b D s0 0 s) (hn : Near m s) : After E W m a b D s0 (s, r) :=
  ⟨h.le (Nat.zero_le _), hn, fun _ => h⟩

theorem Wp.contFrugal {x : M St} (hg : g ≤ 4 * D) (h : Wp Any x (fun s => Frugal E W a b D s0 g s ∧ Near m s)) :
    Wp Any (x >>= fun s => Pure.pure (s, Result.cont)) (After E W m a b D s0) :=
  Wp.seq h fun _ h1 => After.cont h1.1 hg h1.2

theorem widthBetween_f (h : Frugal E W a b D s0 g s) {lo hi w : Int} (hw : widthBetween E s lo hi = .ok w) :
    0 ≤ lo ∧ lo ≤ hi ∧ hi ≤ s.len ∧ hi - lo ≤ w := by
  obtain ⟨h1, h2, h3, rfl⟩ := widthBetween_ok hw
  refine ⟨h1, h2, h3, ?_⟩
  have := (h.stout.sub (ds := (s.buf.take hi.toNat).drop lo.toNat) fun c hc =>
    List.mem_of_mem_take (List.mem_of_mem_drop hc)).len
  rw [List.length_drop, List.length_take] at this
  unfold St.len at h3
  omega

theorem cmdEndOfLine_f (G : Gauge E W m a b D) (h : Frugal E W a b D s0 0 s) (hn : Near m s) :
    Wp Any (cmdEndOfLine E s) (After E W m a b D s0) := by
  refine Wp.of_ok fun p hp => ?_
  unfold cmdEndOfLine at hp
  obtain ⟨w, hw, hp⟩ := bind_ok.mp hp
  obtain ⟨w1, w2, w3, w4⟩ := widthBetween_f h hw
  have hv := h.view G
  have hone := G.one
  split at hp
  · obtain ⟨s1, h1, hp⟩ := bind_ok.mp hp
    cases pure_ok.mp hp
    have key := (puts_f G h (lo := s.cursor) (hi := s.len) (by have := hn.1; omega) (by omega)).ok h1
    obtain ⟨k1, k2, k3, k4, k5, k6, k7⟩ := key
    refine After.cont (g := 0 + D) (Frugal.emit (k1.of)) (by omega) ?_
    show s1.viewStart ≤ s1.len ∧ s1.len ≤ s1.viewStart + m
    omega
  · obtain ⟨last, hl, hp⟩ := bind_ok.mp hp
    obtain ⟨s1, h1, hp⟩ := bind_ok.mp hp
    cases pure_ok.mp hp
    obtain ⟨i1, i2, i3⟩ := index_ok hl
    have i2 : s.len - 1 < s.len := i2
    have i1 : 0 ≤ s.len - 1 := i1
    have hlast : 1 ≤ last.moji.width E.cfg := h.stout _ (List.mem_of_getElem? i3)
    obtain ⟨e1, e2⟩ := eolLoop_count (C := E.cfg) (vw := s.viewWidth) h.stout (s.len - 1).toNat (last.moji.width E.cfg)
    have f0 : Frugal E W a b D s0 0 { gotoHead s with viewStart :=
        (eolLoop E.cfg s.buf s.viewWidth (s.len - 1).toNat (last.moji.width E.cfg) : Nat) } :=
      (Frugal.emit (x := .gotoCol (s.topColumn + 1)) h).of
    have key := (puts_f G f0 (lo := (eolLoop E.cfg s.buf s.viewWidth (s.len - 1).toNat (last.moji.width E.cfg) : Nat))
      (hi := s.len) (by rcases e2 with e2 | e2 <;> omega) (by omega)).ok h1
    obtain ⟨k1, k2, k3, k4, k5, k6, k7⟩ := key
    refine After.cont (g := 0 + D) (Frugal.emit (k1.of)) (by omega) ?_
    have k3 : s1.viewStart = (eolLoop E.cfg s.buf s.viewWidth (s.len - 1).toNat (last.moji.width E.cfg) : Nat) := k3
    have k4 : s1.len = s.len := k4
    show s1.viewStart ≤ s1.len ∧ s1.len ≤ s1.viewStart + m
    rcases e2 with e2 | e2 <;> omega

theorem cmdForwardChar_f (G : Gauge E W m a b D) (h : Frugal E W a b D s0 0 s) (hn : Near m s) :
    Wp Any (cmdForwardChar E s) (After E W m a b D s0) := by
  unfold cmdForwardChar
  have hone := G.one
  split
  · split
    · exact Wp.contFrugal (g := 0 + 2 * D) (by omega) (replaceAndRepaint_f G h _ _ (by omega))
    · exact After.cont h (Nat.zero_le _) hn
  · refine Wp.of_ok fun p hp => ?_
    obtain ⟨w, hw, hp⟩ := bind_ok.mp hp
    obtain ⟨w1, w2, w3, w4⟩ := widthBetween_f h hw
    have hv := h.view G
    obtain ⟨n1, n2⟩ := hn
    split at hp
    · obtain ⟨s1, h1, hp⟩ := bind_ok.mp hp
      cases pure_ok.mp hp
      have key := (puts_f G h (lo := s.cursor) (hi := s.cursor + 1) (by omega) (by omega)).ok h1
      obtain ⟨k1, k2, k3, k4, k5, k6, k7⟩ := key
      refine After.cont (g := 0 + D) (k1.of) (by omega) ?_
      show s1.viewStart ≤ s1.cursor + 1 ∧ s1.cursor + 1 ≤ s1.viewStart + m
      omega
    · obtain ⟨c, _, hp⟩ := bind_ok.mp hp
      obtain ⟨v, _, hp⟩ := bind_ok.mp hp
      obtain ⟨s1, h1, hp⟩ := bind_ok.mp hp
      cases pure_ok.mp hp
      dsimp only at h1
      have hvs : s.viewStart + 1 ≤ (if c.moji.width E.cfg > v.moji.width E.cfg then (gotoHead s).viewStart + 1
          else (gotoHead s).viewStart) + 1 := by
        split
        · show s.viewStart + 1 ≤ s.viewStart + 1 + 1; omega
        · exact Int.le_refl _
      generalize (if c.moji.width E.cfg > v.moji.width E.cfg then (gotoHead s).viewStart + 1
        else (gotoHead s).viewStart) + 1 = vs at h1 hvs
      have f0 : Frugal E W a b D s0 0 { gotoHead s with viewStart := vs } :=
        (Frugal.emit (x := .gotoCol (s.topColumn + 1)) h).of
      have key := (puts_f G f0 (lo := vs) (hi := s.cursor + 1) (by omega) (by omega)).ok h1
      obtain ⟨k1, k2, k3, k4, k5, k6, k7⟩ := key
      have k2 : s1.cursor = s.cursor := k2
      have k3 : s1.viewStart = vs := k3
      refine After.cont (g := 0 + D) ((Frugal.emit (x := .eraseEol) k1).of) (by omega) ?_
      show s1.viewStart ≤ s1.cursor + 1 ∧ s1.cursor + 1 ≤ s1.viewStart + m
      omega

theorem cmdBackwardDeleteChar_f (G : Gauge E W m a b D) (h : Frugal E W a b D s0 0 s) (hn : Near m s) :
    Wp Any (cmdBackwardDeleteChar E s) (fun p => Frugal E W a b D s0 (2 * D) p.1 ∧ Near m p.1 ∧ p.2 = .cont) := by
  unfold cmdBackwardDeleteChar
  obtain ⟨n1, n2⟩ := hn
  split
  · refine Wp.seq (deleteCells_f (s := { s with cursor := s.cursor - 1 }) (h.of) _ _) fun p h1 => ?_
    obtain ⟨s1, n⟩ := p
    obtain ⟨k1, k2, k3, k4⟩ := h1
    dsimp only at k1 k2 k3 k4 ⊢
    have f : Frugal E W a b D s0 0 (if s1.cursor < s1.viewStart then { s1 with viewStart := s1.cursor } else s1) := by
      split
      · exact k1.of
      · exact k1
    refine Wp.seq (repaint_f G f ?_ (by omega)) fun s2 h2 => ⟨h2.1.le (by omega), h2.2, rfl⟩
    intro _
    split
    · show s1.cursor ≤ s1.cursor + m; omega
    · omega
  · exact ⟨h.le (by omega), ⟨n1, n2⟩, rfl⟩

theorem cmdDeleteChar_f (G : Gauge E W m a b D) (h : Frugal E W a b D s0 0 s) (hn : Near m s) :
    Wp Any (cmdDeleteChar E s) (After E W m a b D s0) := by
  unfold cmdDeleteChar
  obtain ⟨n1, n2⟩ := hn
  refine Wp.seq (deleteCells_f h _ _) fun p h1 => ?_
  obtain ⟨k1, k2, k3, k4⟩ := h1
  exact Wp.contFrugal (g := 0 + 2 * D) (by omega) (repaint_f G k1 (by intro _; omega) (by omega))

theorem selfInsertTail_f (G : Gauge E W m a b D) (h : Frugal E W a b D s0 g s) (hn : Near m s) (hg : g + 2 * D ≤ 4 * D)
    (k : Bytes) : Wp Any (selfInsertTail E s k) (After E W m a b D s0) := by
  unfold selfInsertTail
  obtain ⟨n1, n2⟩ := hn
  refine Wp.seq (insertString_f G h _ _) fun p h1 => ?_
  obtain ⟨s1, ms⟩ := p
  obtain ⟨k1, k2, k3, k4⟩ := h1
  dsimp only at k1 k2 k3 k4 ⊢
  refine Wp.of_ok fun q hq => ?_
  obtain ⟨w, hw, hq⟩ := bind_ok.mp hq
  obtain ⟨w1, w2, w3, w4⟩ := widthBetween_f k1 hw
  have hl := k4.len
  have hv := k1.view G
  refine (Wp.contFrugal (g := g + 2 * D) (by omega) (repaint_f G (s := if w + cellsWidth E.cfg ms ≥
    St.viewWidth { s1 with cursor := s1.cursor + ms.length } then resetViewStart E { s1 with cursor := s1.cursor + ms.length }
    else { s1 with cursor := s1.cursor + ms.length }) ?_ ?_ hg)).ok hq
  · split <;> exact k1.of
  · split
    · exact reset_f G (s := { s1 with cursor := s1.cursor + ms.length }) (k1.of)
    · rename_i hc
      intro _
      have hc : ¬ w + cellsWidth E.cfg ms ≥ s1.viewWidth := hc
      show s1.cursor + (ms.length : Int) ≤ s1.viewStart + m
      omega

theorem cmdSelfInsert_f (G : Gauge E W m a b D) (h : Frugal E W a b D s0 0 s) (hn : Near m s) (k : Bytes) :
    Wp Any (cmdSelfInsert E k s) (After E W m a b D s0) := by
  unfold cmdSelfInsert
  dsimp only
  split
  · refine Wp.seq Wp.any fun c _ => ?_
    refine Wp.mono (cmdBackwardDeleteChar_f G (s := { s with pending := _ }) (h.of) hn) fun p _ hp => ?_
    obtain ⟨s1, r⟩ := p
    obtain ⟨k1, k2, k3⟩ := hp
    cases k3
    exact After.cont k1 (by omega) k2
  · split
    · refine Wp.seq Wp.any fun c _ => ?_
      refine Wp.seq (cmdBackwardDeleteChar_f G h hn) fun p h1 => ?_
      exact selfInsertTail_f G h1.1 h1.2.1 (by omega) _
    · split
      · exact selfInsertTail_f G (s := { s with pending := [] }) (h.of) hn (by omega) _
      · exact selfInsertTail_f G h hn (by omega) _

theorem cmdKillWholeLine_f (h : Frugal E W a b D s0 0 s) :
    Wp Any (cmdKillWholeLine s) (fun p => Frugal E W a b D s0 0 p.1 ∧ Near m p.1 ∧ p.2 = .cont) := by
  unfold cmdKillWholeLine
  dsimp only
  refine Wp.pure ⟨?_, ⟨Int.le_refl 0, by show (0 : Int) ≤ 0 + m; omega⟩, rfl⟩
  exact Frugal.of (Frugal.emit (x := .eraseEol) (Frugal.emit (x := .gotoCol (s.topColumn + 1)) h))
    (fun _ hm => nomatch hm)

theorem showHistory_f (G : Gauge E W m a b D) (h : Frugal E W a b D s0 0 s) :
    Wp Any (showHistory E s) (After E W m a b D s0) := by
  unfold showHistory
  refine Wp.seq (cmdKillWholeLine_f (m := m) h) fun p h1 => ?_
  obtain ⟨s1, n⟩ := p
  dsimp only at h1 ⊢
  refine Wp.seq Wp.any fun t _ => ?_
  split
  · refine Wp.seq (insertString_f G h1.1 _ _) fun p h2 => ?_
    obtain ⟨s2, n⟩ := p
    dsimp only at h2 ⊢
    refine Wp.seq (cmdEndOfLine_f G (s := { s2 with viewStart := 0, cursor := 0 }) (h2.1.of)
      ⟨Int.le_refl 0, by show (0 : Int) ≤ 0 + m; omega⟩) fun p h3 => ?_
    exact After.cont h3.1 (by omega) h3.2.1
  · exact After.cont h1.1 (by omega) h1.2.1

theorem saveModifiedHistory_f (h : Frugal E W a b D s0 g s) :
    Wp Any (saveModifiedHistory E s) (Frugal E W a b D s0 g) := by
  unfold saveModifiedHistory
  dsimp only
  have last : ∀ b' : Bool, Wp Any (if b' = true then pure s else
      pure { s with modHist := fun i => if i = s.histPtr then some s.text else s.modHist i } : M St)
      (Frugal E W a b D s0 g) := by
    intro b'
    cases b'
    · exact h.of
    · exact h
  split
  · exact Wp.seq (P := fun _ => True) (Wp.seq Wp.any fun _ _ => trivial) fun b _ => last b
  · exact last false

theorem cmdSwapChar_f (G : Gauge E W m a b D) (h : Frugal E W a b D s0 0 s) (hn : Near m s) :
    Wp Any (cmdSwapChar E s) (After E W m a b D s0) := by
  unfold cmdSwapChar
  obtain ⟨n1, n2⟩ := hn
  have fin : ∀ s1 : St, Frugal E W a b D s0 0 s1 → s1.cursor ≤ s1.viewStart + m →
      Wp Any (do let s ← puts E s1 s1.viewStart s1.cursor; pure (s, Result.cont)) (After E W m a b D s0) := by
    intro s1 h1 h2
    refine Wp.contFrugal (g := 0 + D) (by omega) (Wp.mono (puts_f G h1 h2 (by omega)) fun s2 _ k => ?_)
    obtain ⟨k1, k2, k3, k4, k5, k6, k7⟩ := k
    exact ⟨k1, by unfold Near; omega⟩
  split
  · split
    · exact After.cont h (by omega) ⟨n1, n2⟩
    · refine Wp.seq Wp.any fun _ _ => ?_
      exact fin _ (Frugal.of (s := gotoHead s) (Frugal.emit h) fun c hc => swapAt_mem hc) n2
  · split
    · exact After.cont h (by omega) ⟨n1, n2⟩
    · refine Wp.seq Wp.any fun _ _ => ?_
      refine Wp.of_ok fun q hq => ?_
      obtain ⟨w, hw, hq⟩ := bind_ok.mp hq
      obtain ⟨w1, w2, w3, w4⟩ := widthBetween_f (s := { s with undoes := _ }) (g := 0) (h.of) hw
      have hv := h.view G
      refine (fin _ ?_ ?_).ok hq
      · split <;> exact Frugal.of (s := gotoHead s) (Frugal.emit h) fun c hc => swapAt_mem hc
      · split
        · show s.cursor + 1 ≤ s.viewStart + 1 + m; omega
        · rename_i hc
          have hc : ¬ w ≥ s.viewWidth := hc
          have w4 : s.cursor + 1 - s.viewStart ≤ w := w4
          show s.cursor + 1 ≤ s.viewStart + m
          omega

theorem cmdUnixWordRubout_f (G : Gauge E W m a b D) (h : Frugal E W a b D s0 0 s) (hn : Near m s) :
    Wp Any (cmdUnixWordRubout E s) (After E W m a b D s0) := by
  have n1 := hn.1
  have n2 := hn.2
  unfold cmdUnixWordRubout
  refine Wp.seq Wp.any fun _ _ => ?_
  refine Wp.of_ok fun p hp => ?_
  obtain ⟨new, h1, hp⟩ := bind_ok.mp hp
  obtain ⟨t, h2, hp⟩ := bind_ok.mp hp
  obtain ⟨⟨s1, x⟩, h3, hp⟩ := bind_ok.mp hp
  have hle : new ≤ s.cursor := by
    unfold subString at h2
    obtain ⟨cs, h2, _⟩ := bind_ok.mp h2
    exact (slice_ok h2).2.1
  obtain ⟨k1, k2, k3, k4⟩ := (deleteCells_f (s0 := s0) (a := a) (b := b) (W := W) (D := D) (g := 0) (h.of) _ _).ok h3
  dsimp only at k1 k3 hp
  refine (Wp.contFrugal (g := 0 + 2 * D) (by omega) (repaint_f G (s := if new - s1.viewStart < 2 then
    resetViewStart E { s1 with cursor := new } else { s1 with cursor := new }) ?_ ?_ (by omega))).ok hp
  · split <;> exact k1.of
  · split
    · exact reset_f G (s := { s1 with cursor := new }) (k1.of)
    · intro _
      show new ≤ s1.viewStart + m
      omega

theorem cmdBackwardWord_f (G : Gauge E W m a b D) (h : Frugal E W a b D s0 0 s) (hn : Near m s) :
    Wp Any (cmdBackwardWord E s) (After E W m a b D s0) := by
  have n2 := hn.2
  have hle : 0 ≤ s.cursor → ((skipWordLeft s.buf (skipSpacesLeft s.buf s.cursor.toNat) : Nat) : Int) ≤ s.cursor := by
    intro h3
    have h1 := skipWordLeft_le s.buf (skipSpacesLeft s.buf s.cursor.toNat)
    have h2 := skipSpacesLeft_le s.buf s.cursor.toNat
    omega
  have hc : Wp Any (checkCursor s) (fun _ => 0 ≤ s.cursor) := by
    unfold checkCursor
    split
    · rename_i h0
      split
      · exact h0
      · trivial
    · trivial
  unfold cmdBackwardWord
  refine Wp.seq hc fun _ h0 => ?_
  have hle := hle h0
  dsimp only
  generalize ((skipWordLeft s.buf (skipSpacesLeft s.buf s.cursor.toNat) : Nat) : Int) = np at hle ⊢
  by_cases hv : np < s.viewStart
  · rw [if_pos hv]
    exact Wp.contFrugal (g := 0 + 2 * D) (by omega) (repaint_f G (s := { s with viewStart := np, cursor := np }) (h.of)
      (fun _ => by show np ≤ np + m; omega) (by omega))
  · rw [if_neg hv]
    exact Wp.contFrugal (g := 0 + 2 * D) (by omega) (repaint_f G (s := { s with cursor := np }) (h.of)
      (fun _ => by show np ≤ s.viewStart + m; omega) (by omega))

theorem cmdForwardWord_f (G : Gauge E W m a b D) (h : Frugal E W a b D s0 0 s) (hn : Near m s) :
    Wp Any (cmdForwardWord E s) (After E W m a b D s0) := by
  have n1 := hn.1
  have n2 := hn.2
  unfold cmdForwardWord
  refine Wp.seq Wp.any fun _ _ => ?_
  generalize ((forwardWordPos s.buf s.cursor.toNat : Nat) : Int) = np
  refine Wp.of_ok fun p hp => ?_
  obtain ⟨w, hw, hp⟩ := bind_ok.mp hp
  obtain ⟨w1, w2, w3, w4⟩ := widthBetween_f h hw
  have hv := h.view G
  split at hp
  · obtain ⟨s1, h1, hp⟩ := bind_ok.mp hp
    cases pure_ok.mp hp
    have key := (puts_f G h (lo := s.cursor) (hi := np) (by omega) (by omega)).ok h1
    obtain ⟨k1, k2, k3, k4, k5, k6, k7⟩ := key
    refine After.cont (g := 0 + D) (k1.of) (by omega) ?_
    show s1.viewStart ≤ np ∧ np ≤ s1.viewStart + m
    omega
  · exact (Wp.contFrugal (g := 0 + 2 * D) (by omega) (repaint_f G (s := resetViewStart E { s with cursor := np })
      (h.of) (reset_f G (s := { s with cursor := np }) (g := 0) (h.of)) (by omega))).ok hp

theorem cmdUndo_f (G : Gauge E W m a b D) (h : Frugal E W a b D s0 0 s) (hn : Near m s) :
    Wp Any (cmdUndo E s) (After E W m a b D s0) := by
  have n1 := hn.1
  have n2 := hn.2
  refine Wp.of_ok fun p hp => ?_
  unfold cmdUndo at hp
  cases hu : s.undoes with
  | nil => rw [hu] at hp; cases hp; exact After.leave (Frugal.emit h) hn
  | cons u rest =>
    rw [hu] at hp
    dsimp only at hp
    have f0 : Frugal E W a b D s0 0 (gotoHead { s with undoes := rest }) :=
      Frugal.emit (h.of)
    obtain ⟨b1, h1, hp⟩ := bind_ok.mp hp
    have m1 : ∀ c ∈ b1, c ∈ s.buf := by
      split at h1
      · exact (bufDelete_mem h1).1
      · cases h1; exact fun _ h => h
    obtain ⟨s2, h2, hp⟩ := bind_ok.mp hp
    have f2 : Frugal E W a b D s0 0 s2 := by
      split at h2
      · obtain ⟨b2, h3, h2⟩ := bind_ok.mp h2
        cases pure_ok.mp h2
        refine f0.buf ?_
        unfold bufInsert at h3
        split at h3
        · rename_i hpos
          have hpos := hpos.2
          unfold St.len at hpos
          rw [sliceInsert_eq _ _ _ (by omega)] at h3
          cases h3
          intro c hc
          rcases List.mem_append.mp hc with hc | hc
          · rcases List.mem_append.mp hc with hc | hc
            · exact h.stout c (m1 c (List.mem_of_mem_take hc))
            · exact Stout.mojis G.broad _ c hc
          · exact h.stout c (m1 c (List.mem_of_mem_drop hc))
        · cases h3
      · cases pure_ok.mp h2
        exact f0.of m1
    exact (Wp.contFrugal (g := 0 + 2 * D) (by omega) (repaint_f G (s := resetViewStart E s2)
      (f2.of) (reset_f G f2) (by omega))).ok hp

theorem call_frugal (G : Gauge E W m a b D) {c : Cmd} (hb : c.builtin = true) (hq : c ≠ .quotedInsert)
    (hs : c ≠ .isearchBackward) (h : Frugal E W a b D s0 0 s) (hn : Near m s) :
    Wp Any (Cmd.call E c s) (After E W m a b D s0) := by
  have n1 := hn.1
  have n2 := hn.2
  cases c with
  | quotedInsert => exact absurd rfl hq
  | isearchBackward => exact absurd rfl hs
  | custom f => cases hb
  | completion P =>
    exact cmdComplete_wp trivial (After.leave h hn) (After.leave h.emit hn)
      (fun _ => Wp.mono (repaintAll_f G (Frugal.emit (Frugal.emit (x := .lit [0x0A])
        (Frugal.emit (x := .lit [0x07]) h))) hn (by omega)) fun _ _ k => After.cont k.1 (by omega) k.2)
      (fun _ _ _ _ => Wp.mono (replaceAndRepaint_f G h _ _ (by omega)) fun _ _ k => After.cont k.1 (by omega) k.2)
  | acceptLine => exact After.leave h hn
  | interrupt => exact After.leave (Frugal.of h (fun _ hm => nomatch hm)) ⟨Int.le_refl 0, by show (0 : Int) ≤ 0 + m; omega⟩
  | beginningOfLine =>
    exact Wp.contFrugal (g := 0 + 2 * D) (by omega)
      (repaint_f G (h.of) (fun _ => by show (0 : Int) ≤ 0 + m; omega) (by omega))
  | backwardChar =>
    simp only [Cmd.call, cmdBackwardChar]
    split
    · exact After.leave h hn
    · refine Wp.contFrugal (g := 0 + 2 * D) (by omega) (repaint_f G (h.of) (fun _ => ?_) (by omega))
      show s.cursor - 1 ≤ (if s.cursor - 1 < s.viewStart then s.viewStart - 1 else s.viewStart) + m
      split <;> omega
  | endOfLine => exact cmdEndOfLine_f G h hn
  | forwardChar => exact cmdForwardChar_f G h hn
  | backwardDeleteChar =>
    refine Wp.mono (cmdBackwardDeleteChar_f G h hn) fun p _ hp => ?_
    obtain ⟨s1, r⟩ := p
    obtain ⟨k1, k2, k3⟩ := hp
    cases k3
    exact After.cont k1 (by omega) k2
  | deleteChar => exact cmdDeleteChar_f G h hn
  | deleteOrAbort =>
    simp only [Cmd.call, cmdDeleteOrAbort]
    split
    · exact cmdDeleteChar_f G h hn
    · exact After.leave h hn
  | killLine =>
    refine Wp.of_ok fun p hp => ?_
    simp only [Cmd.call, cmdKillLine] at hp
    obtain ⟨t, _, hp⟩ := bind_ok.mp hp
    obtain ⟨t1, _, hp⟩ := bind_ok.mp hp
    obtain ⟨t2, h2, hp⟩ := bind_ok.mp hp
    cases pure_ok.mp hp
    have h3 := (slice_ok h2).2.2.2
    refine After.leave (Frugal.of (Frugal.emit (x := .eraseEol) h) fun c hc => ?_) hn
    have hc : c ∈ t2 := hc
    rw [h3] at hc
    exact List.mem_of_mem_take (List.mem_of_mem_drop hc)
  | killWholeLine =>
    refine Wp.mono (cmdKillWholeLine_f (m := m) h) fun p _ hp => ?_
    exact ⟨hp.1.le (Nat.zero_le _), hp.2.1, fun _ => hp.1⟩
  | unixWordRubout => exact cmdUnixWordRubout_f G h hn
  | unixLineDiscard =>
    simp only [Cmd.call, cmdUnixLineDiscard]
    refine Wp.seq Wp.any fun _ _ => ?_
    refine Wp.seq (deleteCells_f (s0 := s0) (a := a) (b := b) (W := W) (D := D) (g := 0) (h.of) _ _) fun p h1 => ?_
    exact Wp.contFrugal (g := 0 + 2 * D) (by omega)
      (repaint_f G (h1.1.of) (fun _ => by show (0 : Int) ≤ 0 + m; omega) (by omega))
  | clearScreen =>
    exact Wp.contFrugal (g := 0 + 2 * D) (by omega) (repaintAll_f G (Frugal.emit h) hn (by omega))
  | repaintOnNewline =>
    exact Wp.contFrugal (g := 0 + 2 * D) (by omega) (repaintAll_f G (Frugal.emit h) hn (by omega))
  | yank =>
    simp only [Cmd.call, cmdYank]
    cases s.clip with
    | none => exact After.leave h hn
    | some t => exact Wp.contFrugal (g := 0 + 2 * D) (by omega) (replaceAndRepaint_f G h _ _ (by omega))
  | yankWithQuote =>
    simp only [Cmd.call, cmdYankWithQuote]
    cases s.clip with
    | none => exact After.leave h hn
    | some t => exact Wp.contFrugal (g := 0 + 2 * D) (by omega) (replaceAndRepaint_f G h _ _ (by omega))
  | swapChar => exact cmdSwapChar_f G h hn
  | backwardWord => exact cmdBackwardWord_f G h hn
  | forwardWord => exact cmdForwardWord_f G h hn
  | undo => exact cmdUndo_f G h hn
  | previousHistory =>
    simp only [Cmd.call, cmdPreviousHistory]
    split
    · exact After.leave h hn
    · split
      · exact After.leave h hn
      · refine Wp.seq (saveModifiedHistory_f (s0 := s0) (a := a) (b := b) (W := W) (D := D) (g := 0) ?_)
          fun s1 h1 => showHistory_f G (h1.of)
        split
        · exact h.of
        · exact h
  | nextHistory =>
    simp only [Cmd.call, cmdNextHistory]
    split
    · exact After.leave h hn
    · split
      · exact After.leave h hn
      · exact Wp.seq (saveModifiedHistory_f h) fun s1 h1 => showHistory_f G (h1.of)
  | selfInsert k => exact cmdSelfInsert_f G h hn k

theorem getKey_f {k : Option Bytes} {s' : St} (h : Frugal E W a b D s0 g s) (hg : getKey s = (k, s')) :
    Frugal E W a b D s0 0 s' ∧ s'.cursor = s.cursor ∧ s'.viewStart = s.viewStart := by
  obtain ⟨rest, e⟩ := getKey_state hg
  rw [e]
  exact ⟨(Frugal.wait h).of, rfl, rfl⟩

theorem cmdQuotedInsert_f (G : Gauge E W m a b D) (h : Frugal E W a b D s0 0 s) (hn : Near m s) :
    Wp Any (cmdQuotedInsert E s) (After E W m a b D s0) := by
  unfold cmdQuotedInsert
  dsimp only
  have h0 : Frugal E W a b D s0 0 (s.emit .cursorOn) := Frugal.emit h
  generalize hg : getKey (s.emit .cursorOn) = q
  obtain ⟨k, s1⟩ := q
  obtain ⟨h1, h2, h3⟩ := getKey_f h0 hg
  have hn1 : Near m s1 := by unfold Near; rw [h2, h3]; exact hn
  cases k with
  | none => exact After.leave (Frugal.emit h1) hn1
  | some k =>
    dsimp only
    refine Wp.seq (cmdSelfInsert_f G h1 hn1 k) fun p k => ?_
    exact Wp.pure ⟨Frugal.emit k.1, k.2.1, fun e => Frugal.emit (k.2.2 e)⟩

theorem isearchLoop_f (G : Gauge E W m a b D) (n : Nat) (it : ISt) (s : St) (h : Frugal E W a b D s0 0 s) (hn : Near m s) :
    Wp Any (isearchLoop E n it s) (After E W m a b D s0) := by
  induction n generalizing it s with
  | zero => trivial
  | succ n ih =>
    unfold isearchLoop
    have draw : Wp Any (drawLoop E.cfg s.viewWidth (stringToMoji E.cfg (isearchDraw it)) 0 s)
        (fun s' => Frugal E W a b D s0 (0 + D) s' ∧ s'.cursor = s.cursor ∧ s'.viewStart = s.viewStart) := by
      refine Wp.of_ok fun s' hs' => ?_
      obtain ⟨l, rfl, hl⟩ := drawLoop_count (stringToMoji_wide G.broad _) 0 hs'
      have hv := h.view G
      refine ⟨h.add (u := l.map Tok.glyph) (by simp) ?_ (by omega) h.stout rfl, rfl, rfl⟩
      rw [weigh_glyphs]
      have hk : l.length ≤ m := by
        rcases hl with rfl | hl
        · simp
        · omega
      have h1 := Nat.mul_le_mul_left a hk
      have h2 := G.draw
      rw [Nat.add_mul] at h2
      omega
    refine Wp.seq draw fun s1 h1 => ?_
    dsimp only
    have h2 : Frugal E W a b D s0 (0 + D) ((eraseline s1).emit .cursorOn) :=
      Frugal.emit (Frugal.emit (x := .eraseEol) h1.1)
    generalize hg : getKey ((eraseline s1).emit .cursorOn) = q
    obtain ⟨ok, s2⟩ := q
    obtain ⟨f2, c2, v2⟩ := getKey_f h2 hg
    have c2 : s2.cursor = s1.cursor := c2
    have v2 : s2.viewStart = s1.viewStart := v2
    have hn2 : Near m s2 := by unfold Near; rw [c2, v2, h1.2.1, h1.2.2]; exact hn
    cases ok with
    | none => exact After.leave f2 hn2
    | some key =>
      dsimp only
      have h3 : Frugal E W a b D s0 0 (gotoHead (s2.emit .cursorOff)) :=
        Frugal.emit (Frugal.emit (x := .cursorOff) f2)
      have hn3 : Near m (gotoHead (s2.emit .cursorOff)) := hn2
      generalize gotoHead (s2.emit .cursorOff) = s3 at *
      split
      · exact ih _ _ h3 hn3
      · split
        · exact Wp.contFrugal (g := 0 + 2 * D) (by omega)
            (replaceAndRepaint_f G
            (h3.of (s1 :=
                { s3 with viewStart := 0, undoes := { pos := 0, del := 0, text := s3.text } :: s3.undoes,
                          buf := [], cursor := 0 })
              (fun _ hm => nomatch hm)) _ _ (by omega))
        · split
          · refine Wp.of_ok fun p hp => ?_
            obtain ⟨⟨k, w⟩, hv, hp⟩ := bind_ok.mp hp
            have hc := view_count h3 hv
            have hvw := h3.view G
            dsimp only at hc hp
            obtain ⟨s4, h4, hp⟩ := bind_ok.mp hp
            obtain ⟨s5, h5, hp⟩ := bind_ok.mp hp
            cases pure_ok.mp hp
            obtain ⟨k1, k2, k3, _, _, _, _⟩ := (puts_f G h3 (lo := s3.viewStart) (hi := s3.viewStart + k) (by
              rcases hc.2 with e | e
              · omega
              · cases e; omega) (by omega)).ok h4
            have f4 : Frugal E W a b D s0 (0 + D) (gotoHead (eraseline s4)) :=
              Frugal.emit (Frugal.emit (x := .eraseEol) k1)
            obtain ⟨n1, n2⟩ := hn3
            obtain ⟨l1, l2, l3, _, _, _, _⟩ := (puts_f G f4 (lo := s4.viewStart) (hi := s4.cursor) (by omega) (by omega)).ok h5
            have l2 : s5.cursor = s4.cursor := l2
            have l3 : s5.viewStart = s4.viewStart := l3
            exact After.cont l1 (by omega) (by unfold Near; omega)
          · split
            · exact Wp.seq Wp.any fun it' _ => ih _ _ h3 hn3
            · split
              · exact Wp.seq Wp.any fun it' _ => ih _ _ h3 hn3
              · split
                · exact ih _ _ h3 hn3
                · exact ih _ _ h3 hn3

/-- Every built-in command. -/
theorem call_f (G : Gauge E W m a b D) {c : Cmd} (hb : c.builtin = true) (h : Frugal E W a b D s0 0 s) (hn : Near m s) :
    Wp Any (Cmd.call E c s) (After E W m a b D s0) := by
  by_cases hq : c = .quotedInsert
  · subst hq; exact cmdQuotedInsert_f G h hn
  · by_cases hs : c = .isearchBackward
    · subst hs
      exact isearchLoop_f G _ _ _ (Frugal.emit h) hn
    · exact call_frugal G hb hq hs h hn

theorem finish_f (G : Gauge E W m a b D) (h : Frugal E W a b D s0 0 s) (hn : Near m s) (rc : Result) :
    Wp Any (finish E s rc) (fun p => Frugal E W a b D s0 (2 * D) p.1) := by
  unfold finish
  have last : ∀ s1, Frugal E W a b D s0 (2 * D) s1 → Wp Any (do
      let s1 := match E.lineFeed with
        | some f => s1.emit (.lit (f rc))
        | none => s1.emit (.lit [0x0A])
      let s1 := s1.emit .flush
      let text := s1.text
      let err := match rc with
        | .enter => RLErr.nil
        | .intr => .ctrlC
        | _ => .eof
      return (deferred s1, ({ text := text, err := err } : RLRes)) : M (St × RLRes))
      (fun p => Frugal E W a b D s0 (2 * D) p.1) := by
    intro s1 h1
    refine Wp.pure ?_
    refine Frugal.emit (x := .flush) (Frugal.emit (x := .cursorOn) (Frugal.emit (x := .flush) ?_))
    cases E.lineFeed with
    | none => exact Frugal.emit h1
    | some f => exact Frugal.emit h1
  cases s.suffix with
  | none => exact last s (h.le (Nat.zero_le _))
  | some x =>
    refine Wp.seq (repaintNoSuffix_f G (s := { s with suffix := none }) (s0 := s0) (g := 0) { h with pred := ?_ }
      (fun _ => hn.2) (by omega)) fun s1 h1 => last s1 (h1.1.le (by omega))
    exact fun _ hm => nomatch hm

end

end Readline
