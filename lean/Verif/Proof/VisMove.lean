import Verif.Proof.Vis
/-!
# Commands that do not repaint the whole line
-/
namespace Readline
open Spec

variable {C : Cfg} {E : Env} {lit : Bytes → Row → Row} {s s1 s' : St}

/-! ## The row -/

theorem printErase (hC : ∀ m : Moji, 0 ≤ m.width C) {r : Row} {start : Int} {a c : List Moji}
    (hcol : r.col = start + columns C a)
    (h : ∀ x, start ≤ x → x < start + columns C a → r.cells x = layout C a start x) :
    (∀ x, start ≤ x → ((r.puts C c).receive C lit .eraseEol).cells x = layout C (a ++ c) start x) ∧
    ((r.puts C c).receive C lit .eraseEol).col = start + columns C (a ++ c) := by
  have hn : ∀ ms : List Moji, Wide0 C ms := fun _ m _ => hC m
  have hcol' : (r.puts C c).col = start + columns C (a ++ c) := by
    rw [puts_col, hcol, columns_append]; omega
  refine ⟨?_, hcol'⟩
  intro x hx
  show (if x ≥ (r.puts C c).col then none else (r.puts C c).cells x) = _
  rw [hcol']
  split
  · rename_i hge
    rw [layout_outside (hn _) (Or.inr hge)]
  · rename_i hlt
    rw [puts_cells (hn _), hcol, layout_append (hn _) (hn _)]
    rw [columns_append] at hlt
    by_cases h1 : x < start + columns C a
    · rw [if_neg (by omega), if_pos h1, h x hx h1]
    · rw [if_pos (by omega), if_neg h1]

/-- Printing `c` over `b`, which takes as many columns. -/
theorem printOver (hC : ∀ m : Moji, 0 ≤ m.width C) {r : Row} {start : Int} {a c d e : List Moji}
    (hcol : r.col = start + columns C a)
    (h : ∀ x, start ≤ x → r.cells x = layout C (a ++ e ++ d) start x)
    (hce : columns C c = columns C e) :
    ∀ x, start ≤ x → (r.puts C c).cells x = layout C (a ++ c ++ d) start x := by
  have hn : ∀ ms : List Moji, Wide0 C ms := fun _ m _ => hC m
  intro x hx
  rw [puts_cells (hn _), hcol, layout_append (hn _) (hn _), layout_append (hn _) (hn _), columns_append]
  have h' := h x hx
  rw [layout_append (hn _) (hn _), layout_append (hn _) (hn _), columns_append, ← hce] at h'
  by_cases h1 : x < start + (columns C a + columns C c)
  · rw [if_pos h1] at h' ⊢
    by_cases h2 : x < start + columns C a
    · rw [if_pos h2] at h' ⊢
      rw [if_neg (by omega)]
      exact h'
    · rw [if_neg h2, if_pos (by omega)]
  · rw [if_neg h1] at h' ⊢
    rw [if_neg (by omega)]
    exact h'

/-- Printing `c` over `b`, which takes no more columns and has nothing behind. -/
theorem printPast (hC : ∀ m : Moji, 0 ≤ m.width C) {r : Row} {start : Int} {a c e : List Moji}
    (hcol : r.col = start + columns C a)
    (h : ∀ x, start ≤ x → r.cells x = layout C (a ++ e) start x)
    (hce : columns C e ≤ columns C c) :
    ∀ x, start ≤ x → (r.puts C c).cells x = layout C (a ++ c) start x := by
  have hn : ∀ ms : List Moji, Wide0 C ms := fun _ m _ => hC m
  intro x hx
  rw [puts_cells (hn _), hcol, layout_append (hn _) (hn _)]
  have h' := h x hx
  rw [layout_append (hn _) (hn _)] at h'
  by_cases h2 : x < start + columns C a
  · rw [if_pos h2] at h' ⊢
    rw [if_neg (by omega)]
    exact h'
  · rw [if_neg h2] at h' ⊢
    by_cases h3 : x < start + columns C a + columns C c
    · rw [if_pos (by omega)]
    · rw [if_neg (by omega), h', layout_outside (hn _) (Or.inr (by omega)),
        layout_outside (hn _) (Or.inr (by omega))]

theorem Draws.keeps {f : Row → Row} (hd : Draws E.cfg lit s s' f)
    (h : ∀ r, Shows E s r → Shows E s' (f r) ∧ (f r).high ≤ max r.high (s'.termWidth - 3)) :
    Keeps E lit s s' := by
  obtain ⟨t, e, hr⟩ := hd
  exact ⟨t, e, fun r hs => by rw [hr]; exact h r hs⟩

theorem Keeps.refl : Keeps E lit s s :=
  ⟨[], by simp, fun r h => ⟨h, Int.le_max_left _ _⟩⟩

/-- Nothing that can be seen has changed. -/
theorem Spec.Shows.congr {r : Row} (h : Shows E s r) (h1 : s'.buf = s.buf := by rfl)
    (h2 : s'.viewStart = s.viewStart := by rfl) (h3 : s'.cursor = s.cursor := by rfl)
    (h4 : s'.topColumn = s.topColumn := by rfl) (h5 : s'.termWidth = s.termWidth := by rfl)
    (h6 : s'.suffix = s.suffix := by rfl) : Shows E s' r := by
  have hm : s'.mojis = s.mojis := by unfold St.mojis; rw [h1]
  have hb : ∀ lo hi, s'.between lo hi = s.between lo hi := fun lo hi => between_congr hm lo hi
  have hl : s'.len = s.len := by unfold St.len; rw [h1]
  have hw : s'.viewWidth = s.viewWidth := by unfold St.viewWidth; rw [h4, h5]
  obtain ⟨right, pred, a1, a2, a3, a4, a5, a6⟩ := h.cells
  refine ⟨by rw [h2]; exact h.low, by rw [h2, h3]; exact h.mid, by rw [h3, hl]; exact h.high,
    by rw [h2, h3, h4, hb]; exact h.col, right, pred, ?_⟩
  have hx : s'.suffixList = s.suffixList := by unfold St.suffixList; rw [h6]
  rw [h2, h3, h4, hb, hb, hl, hw, hx]
  refine ⟨a1, a2, a3, a4, a5, ?_⟩
  intro hsw
  apply a6
  unfold SameWidths at hsw ⊢
  rw [hm] at hsw
  exact hsw

theorem Keeps.congr (h : Keeps E lit s s1) (h0 : s'.out = s1.out := by rfl)
    (h1 : s'.buf = s1.buf := by rfl) (h2 : s'.viewStart = s1.viewStart := by rfl)
    (h3 : s'.cursor = s1.cursor := by rfl) (h4 : s'.topColumn = s1.topColumn := by rfl)
    (h5 : s'.termWidth = s1.termWidth := by rfl) (h6 : s'.suffix = s1.suffix := by rfl) : Keeps E lit s s' := by
  obtain ⟨t, e, hr⟩ := h
  exact ⟨t, h0.trans e, fun r hs => ⟨(hr r hs).1.congr h1 h2 h3 h4 h5 h6, by rw [h5]; exact (hr r hs).2⟩⟩

/-- A token that leaves the row alone. -/
theorem Keeps.emit (h : Keeps E lit s s1) (t : Tok) (ht : ∀ r, Row.receive E.cfg lit r t = r) :
    Keeps E lit s (s1.emit t) := by
  obtain ⟨u, e, hr⟩ := h
  refine ⟨u ++ [t], ?_, fun r hs => ?_⟩
  · show s1.out ++ [t] = _
    rw [e, List.append_assoc]
  · have : Row.run E.cfg lit r (u ++ [t]) = Row.run E.cfg lit r u := by
      rw [run_append]; exact ht _
    rw [this]
    exact ⟨(hr r hs).1.congr, (hr r hs).2⟩

/-- … before a command. -/
theorem Keeps.before {t : Tok} (h : Keeps E lit s1 s') (ht : ∀ r, Row.receive E.cfg lit r t = r)
    (h0 : s1.out = s.out ++ [t] := by rfl)
    (h1 : s1.buf = s.buf := by rfl) (h2 : s1.viewStart = s.viewStart := by rfl)
    (h3 : s1.cursor = s.cursor := by rfl) (h4 : s1.topColumn = s.topColumn := by rfl)
    (h5 : s1.termWidth = s.termWidth := by rfl)
    (h6 : s1.suffix = s.suffix := by rfl) : Keeps E lit s s' := by
  obtain ⟨u, e, hr⟩ := h
  refine ⟨[t] ++ u, ?_, fun r hs => ?_⟩
  · rw [e, h0, List.append_assoc]
  · have : Row.run E.cfg lit r ([t] ++ u) = Row.run E.cfg lit r u := by
      rw [run_append]
      show Row.run E.cfg lit (Row.receive E.cfg lit r t) u = _
      rw [ht]
    rw [this]
    exact hr r (hs.congr h1 h2 h3 h4 h5 h6)

/-! ## Moving to the right inside the view -/

theorem prefix_cases {a c l : List Moji} (h1 : a <+: l) (h2 : c <+: l) :
    (∃ d, a = c ++ d) ∨ (∃ m d, c = a ++ m :: d) := by
  rcases List.prefix_or_prefix_of_prefix h1 h2 with ⟨d, hd⟩ | ⟨d, hd⟩
  · cases d with
    | nil => exact Or.inl ⟨[], by simpa using hd⟩
    | cons m d => exact Or.inr ⟨m, d, hd.symm⟩
  · exact Or.inl ⟨d, hd.symm⟩

/-- Printing the units between the cursor and a position in the view moves the cursor there. -/
theorem advance (hS : Sane E lit) (hT : ∀ p, Moji.tab p ∉ s.mojis) {p : Int}
    (h : puts E s s.cursor p = .ok s1) (hw : columns E.cfg (s.between s.viewStart p) < s.viewWidth) :
    Keeps E lit s { s1 with cursor := p } := by
  obtain ⟨⟨b, o, e⟩, hm, ⟨h0, h1, h2⟩, hd⟩ := puts_row (lit := lit) (St.noTabs_aligned (E := E) hT) h
  refine Draws.keeps (hd.of_out (s2 := { s1 with cursor := p })) fun r hs => ?_
  have hbt : ∀ lo hi, ({ s1 with cursor := p } : St).between lo hi = s.between lo hi :=
    fun lo hi => between_congr (s := s) (s' := { s1 with cursor := p }) hm lo hi
  have hlen : ({ s1 with cursor := p } : St).len = s.len := by
    show s1.len = s.len
    rw [← mojis_length, ← mojis_length, hm]
  have e1 : s1.viewStart = s.viewStart ∧ s1.topColumn = s.topColumn ∧ s1.viewWidth = s.viewWidth ∧
      s1.termWidth = s.termWidth := by rw [e]; exact ⟨rfl, rfl, rfl, rfl⟩
  have hvw : ({ s1 with cursor := p } : St).viewWidth = s.viewWidth := e1.2.2.1
  have hsp : s.between s.viewStart p = s.between s.viewStart s.cursor ++ s.between s.cursor p :=
    between_split hs.mid h1
  have hsp2 : s.between s.cursor s.len = s.between s.cursor p ++ s.between p s.len :=
    between_split h1 h2
  obtain ⟨right, pred, a1, a2, a3, a4, a5, a6⟩ := hs.cells
  have hcol := hs.col
  have hhigh : (r.puts E.cfg (s.between s.cursor p)).high ≤ max r.high (s1.termWidth - 3) := by
    apply puts_high (hS.wide _)
    · omega
    · rw [hcol, e1.2.2.2, ← St.lim]
      rw [hsp, columns_append] at hw
      omega
  refine ⟨⟨?_, ?_, ?_, ?_, ?_⟩, hhigh⟩
  · show 0 ≤ s1.viewStart
    rw [e1.1]; exact hs.low
  · show s1.viewStart ≤ p
    rw [e1.1]; have := hs.mid; omega
  · show p ≤ s1.len
    have : s1.len = s.len := hlen
    omega
  · rw [puts_col, hcol]
    show _ = s1.topColumn + columns E.cfg (({ s1 with cursor := p } : St).between s1.viewStart p)
    rw [hbt, e1.1, e1.2.1, hsp, columns_append]
    omega
  · rcases prefix_cases a1 ⟨_, hsp2.symm⟩ with ⟨d, hdd⟩ | ⟨m, d, hdd⟩
    · -- everything printed is there already
      refine ⟨d, pred, ?_⟩
      rw [hlen, hbt, hvw]
      show _ ∧ columns E.cfg (({ s1 with cursor := p } : St).between s1.viewStart p ++ d ++ pred) < _ ∧
        (∀ x, s1.topColumn ≤ x → _ = layout E.cfg
          (({ s1 with cursor := p } : St).between s1.viewStart p ++ d ++ pred) s1.topColumn x) ∧ _ ∧ _ ∧
        (_ → ∀ m tail, _ → _ ≤ columns E.cfg
          (({ s1 with cursor := p } : St).between s1.viewStart p ++ d) + _)
      rw [hbt, e1.1, e1.2.1, hsp]
      rw [hdd] at a1 a2 a3 a6
      refine ⟨?_, by simpa only [List.append_assoc] using a2, ?_, ?_, a5, ?_⟩
      · rw [hsp2] at a1
        exact (List.prefix_append_right_inj _).mp a1
      · have := printOver (C := E.cfg) hS.width (r := r) (start := s.topColumn)
          (a := s.between s.viewStart s.cursor) (c := s.between s.cursor p) (e := s.between s.cursor p)
          (d := d ++ pred) hcol (by simpa only [List.append_assoc] using a3) rfl
        simpa only [List.append_assoc] using this
      · rcases a4 with a4 | a4
        · exact Or.inl a4
        · right
          refine ⟨by show p = s.len; omega, ?_⟩
          have : s1.suffix = s.suffix := by rw [e]
          show pred <+: s1.suffix.getD []
          rw [this]; exact a4.2
      · intro hsw m tail em
        have : SameWidths E s := by
          unfold SameWidths at hsw ⊢
          rw [← hm]; exact hsw
        have := a6 this m tail (by
          rw [hsp2, List.append_assoc]; exact congrArg _ em)
        simpa only [List.append_assoc] using this
    · -- something new is printed
      have hlt : s.cursor < s.len := by
        apply Classical.byContradiction
        intro hcon
        have : s.between s.cursor p = [] := between_empty s (by omega)
        rw [this] at hdd
        simp at hdd
      have hpred : pred = [] := by
        rcases a4 with a4 | a4
        · exact a4
        · omega
      subst hpred
      refine ⟨[], [], ?_⟩
      rw [hlen, hbt, hvw]
      show _ ∧ columns E.cfg (({ s1 with cursor := p } : St).between s1.viewStart p ++ [] ++ []) < _ ∧
        (∀ x, s1.topColumn ≤ x → _ = layout E.cfg
          (({ s1 with cursor := p } : St).between s1.viewStart p ++ [] ++ []) s1.topColumn x) ∧ _ ∧ _ ∧
        (_ → ∀ m tail, _ → _ ≤ columns E.cfg
          (({ s1 with cursor := p } : St).between s1.viewStart p ++ []) + _)
      rw [hbt, e1.1, e1.2.1]
      simp only [List.append_nil] at *
      refine ⟨List.nil_prefix, hw, ?_, Or.inl trivial, fun _ => trivial, ?_⟩
      · rw [hsp]
        apply printPast hS.width hcol a3
        rw [hdd, columns_append]
        have := (hS.wide (m :: d)).columns
        omega
      · intro hsw
        exfalso
        have : SameWidths E s := by
          unfold SameWidths at hsw ⊢
          rw [← hm]; exact hsw
        have := a6 this m (d ++ s.between p s.len) (by rw [hsp2, hdd]; simp)
        rw [hsp, hdd, columns_append, columns_append] at hw
        rw [columns_append] at this
        have h3 : columns E.cfg (m :: d) = m.width E.cfg + columns E.cfg d := rfl
        have := (hS.wide d).columns
        omega

/-! ## Lines shown up to the cursor -/

/-- Nothing is shown behind the cursor. -/
theorem Shows.of_left {r : Row} (low : 0 ≤ s.viewStart) (mid : s.viewStart ≤ s.cursor) (high : s.cursor ≤ s.len)
    (fits : columns E.cfg (s.between s.viewStart s.cursor) < s.viewWidth)
    (col : r.col = s.topColumn + columns E.cfg (s.between s.viewStart s.cursor))
    (cells : ∀ x, s.topColumn ≤ x → r.cells x = layout E.cfg (s.between s.viewStart s.cursor) s.topColumn x)
    (full : SameWidths E s → ∀ m tail, s.between s.cursor s.len = m :: tail →
      s.viewWidth ≤ columns E.cfg (s.between s.viewStart s.cursor) + m.width E.cfg) : Shows E s r := by
  refine ⟨low, mid, high, col, [], [], List.nil_prefix, ?_, ?_, Or.inl rfl, fun _ => rfl, ?_⟩
  · simpa using fits
  · simpa using cells
  · intro h m tail e
    rw [List.append_nil]
    exact full h m tail e

theorem full_at_end (h : s.cursor = s.len) {P : Moji → Prop} :
    SameWidths E s → ∀ m tail, s.between s.cursor s.len = m :: tail → P m := by
  intro _ m tail e
  rw [between_empty s (by omega)] at e
  cases e

/-- The row shows at least the units from `ViewStart` to the cursor. -/
structure Ready (E : Env) (s : St) (r : Row) : Prop where
  low : 0 ≤ s.viewStart
  mid : s.viewStart ≤ s.cursor
  high : s.cursor ≤ s.len
  col : r.col = s.topColumn + columns E.cfg (s.between s.viewStart s.cursor)
  cells : ∀ x, s.topColumn ≤ x → x < s.topColumn + columns E.cfg (s.between s.viewStart s.cursor) →
    r.cells x = layout E.cfg (s.between s.viewStart s.cursor) s.topColumn x

theorem Spec.Shows.ready (hS : Sane E lit) {r : Row} (h : Shows E s r) : Ready E s r := by
  refine ⟨h.low, h.mid, h.high, h.col, ?_⟩
  obtain ⟨right, pred, _, _, h3, _⟩ := h.cells
  intro x hx hx2
  rw [h3 x hx, List.append_assoc, layout_append (hS.wide _) (hS.wide _), if_pos hx2]

theorem swapAt_mem {l : List α} {i : Nat} {x : α} (h : x ∈ swapAt l i) : x ∈ l := by
  unfold swapAt at h
  split at h
  · rename_i a c ha hc
    rcases List.mem_or_eq_of_mem_set h with h | h
    · rcases List.mem_or_eq_of_mem_set h with h | h
      · exact h
      · rw [h]; exact List.mem_of_getElem? hc
    · rw [h]; exact List.mem_of_getElem? ha
  · exact h

theorem swapAt_drop (l : List α) (i n : Nat) (h : i + 2 ≤ n) : (swapAt l i).drop n = l.drop n := by
  unfold swapAt
  split
  · rw [List.drop_set_of_lt (by omega), List.drop_set_of_lt (by omega)]
  · rfl

theorem between_same_buf {a c : St} (h : a.buf = c.buf) (lo hi : Int) : a.between lo hi = c.between lo hi :=
  between_congr (s := c) (s' := a) (by unfold St.mojis; rw [h]) lo hi

/-- The loop of `cmdEndOfLine`: as many units as fit before the end. -/
theorem eolLoop_ok (s : St) (vw : Int) : ∀ (n : Nat) (w : Int), n ≤ s.mojis.length →
    w = columns C (s.between n s.len) → w < vw →
    eolLoop C s.buf vw n w ≤ n ∧ columns C (s.between (eolLoop C s.buf vw n w : Nat) s.len) < vw := by
  intro n
  induction n with
  | zero => intro w hn hw hlt; rw [eolLoop]; exact ⟨Nat.le_refl _, by rw [← hw]; exact hlt⟩
  | succ n ih =>
    intro w hn hw hlt
    rw [eolLoop]
    have hl : s.mojis.length = s.buf.length := by simp [St.mojis]
    have hi : n < s.buf.length := by omega
    rw [List.getElem?_eq_getElem hi]
    dsimp only
    have hg : s.mojis[n]? = some s.buf[n].moji := by
      rw [mojis_get, List.getElem?_eq_getElem hi]; rfl
    have hll := mojis_length s
    have hsp : s.between n s.len = s.buf[n].moji :: s.between (n + 1 : Nat) s.len := by
      rw [between_split (mid := (n : Int) + 1) (by omega) (by omega), between_one hg]
      rfl
    split
    · exact ⟨Nat.le_refl _, by rw [← hw]; exact hlt⟩
    · rename_i hc
      obtain ⟨h1, h2⟩ := ih (w + s.buf[n].moji.width C) (by omega) (by
        rw [hsp, hw]; show _ = s.buf[n].moji.width C + _; omega) (by omega)
      exact ⟨by omega, h2⟩

/-- `cmdEndOfLine` on a line without tabs. -/
theorem endOfLine_draws (hS : Sane E lit) (hT : ∀ p, Moji.tab p ∉ s.mojis) {p : St × Result}
    (hN : ∀ m ∈ s.mojis, m.width E.cfg < s.viewWidth)
    (h : cmdEndOfLine E s = .ok p) :
    ∃ f, Draws E.cfg lit s p.1 f ∧ ∀ r, Ready E s r →
      Shows E p.1 (f r) ∧ (f r).high ≤ max r.high (p.1.termWidth - 3) := by
  have ha := St.noTabs_aligned (E := E) hT
  unfold cmdEndOfLine at h
  obtain ⟨w, h0, h⟩ := bind_ok.mp h
  obtain ⟨b0, b1, b2, hw⟩ := widthBetween_columns h0
  split at h
  · rename_i hlt
    obtain ⟨s1, h1, h⟩ := bind_ok.mp h
    cases h
    obtain ⟨⟨b, o, e⟩, hm, ⟨c0, c1, c2⟩, hd⟩ := puts_row (lit := lit) ha h1
    have hlen : s1.len = s.len := by rw [← mojis_length, ← mojis_length, hm]
    refine ⟨_, (hd.of_out (s2 := { s1 with cursor := s1.len })).emit .eraseEol, fun r hr => ?_⟩
    have hsp : s.between s.viewStart s.len = s.between s.viewStart s.cursor ++ s.between s.cursor s.len :=
      between_split hr.mid hr.high
    obtain ⟨h3, h4⟩ := printErase (lit := lit) hS.width (c := s.between s.cursor s.len) hr.col hr.cells
    have hbt : ∀ lo hi, (eraseline { s1 with cursor := s1.len }).between lo hi = s.between lo hi :=
      fun lo hi => between_congr (s := s) (s' := eraseline { s1 with cursor := s1.len }) hm lo hi
    have e1 : s1.viewStart = s.viewStart ∧ s1.topColumn = s.topColumn ∧ s1.viewWidth = s.viewWidth ∧
      s1.termWidth = s.termWidth := by rw [e]; exact ⟨rfl, rfl, rfl, rfl⟩
    have hleft : (eraseline { s1 with cursor := s1.len }).between
        (eraseline { s1 with cursor := s1.len }).viewStart
        (eraseline { s1 with cursor := s1.len }).cursor = s.between s.viewStart s.len := by
      rw [hbt]; show s.between s1.viewStart s1.len = _; rw [e1.1, hlen]
    have htop : (eraseline { s1 with cursor := s1.len }).topColumn = s.topColumn := e1.2.1
    refine ⟨Shows.of_left ?_ ?_ ?_ ?_ ?_ ?_ (full_at_end rfl), ?_⟩
    · show 0 ≤ s1.viewStart; rw [e1.1]; exact hr.low
    · show s1.viewStart ≤ s1.len; rw [e1.1, hlen]; exact b1
    · exact Int.le_refl _
    · rw [hleft, ← hw]
      show w < s1.viewWidth
      rw [e1.2.2.1]; exact hlt
    · rw [hleft, htop, hsp]; exact h4
    · rw [hleft, htop, hsp]; exact h3
    · show (r.puts E.cfg (s.between s.cursor s.len)).high ≤ max r.high (s1.termWidth - 3)
      apply puts_high (hS.wide _)
      · omega
      · rw [hr.col, e1.2.2.2, ← St.lim]
        rw [hw, hsp, columns_append] at hlt
        omega
  · rename_i hge
    obtain ⟨last, h1, h⟩ := bind_ok.mp h
    obtain ⟨s1, h2, h⟩ := bind_ok.mp h
    cases h
    obtain ⟨i0, i1, i2⟩ := index_ok h1
    have hl : s.mojis.length = s.buf.length := by simp [St.mojis]
    have hll := mojis_length s
    have hlastm : s.mojis[(s.len - 1).toNat]? = some last.moji := by
      rw [mojis_get]
      have : s.buf[(s.len - 1).toNat]? = some last := i2
      rw [this]; rfl
    have hone := between_one hlastm
    have hle : (((s.len - 1).toNat : Nat) : Int) + 1 = s.len := by
      have : (0 : Int) ≤ s.len - 1 := i0
      omega
    rw [hle] at hone
    obtain ⟨v1, v2⟩ := eolLoop_ok (C := E.cfg) s s.viewWidth (s.len - 1).toNat (last.moji.width E.cfg)
      (by omega) (by rw [hone]; simp [columns]) (hN _ (List.mem_of_getElem? hlastm))
    generalize hvs : eolLoop E.cfg s.buf s.viewWidth (s.len - 1).toNat (last.moji.width E.cfg) = vs at v1 v2
    have hvs' : eolLoop E.cfg (gotoHead s).buf (gotoHead s).viewWidth ((gotoHead s).len - 1).toNat
      (last.moji.width E.cfg) = vs := hvs
    rw [hvs'] at h2
    obtain ⟨⟨b, o, e⟩, hm, ⟨c0, c1, c2⟩, hd⟩ :=
      puts_row (lit := lit) (s := { gotoHead s with viewStart := vs }) ha h2
    have hlen : s1.len = s.len := by rw [← mojis_length, ← mojis_length, hm]; rfl
    have hbs : ({ gotoHead s with viewStart := vs } : St).between vs ({ gotoHead s with viewStart := vs } : St).len
        = s.between vs s.len := rfl
    have hd' : Draws E.cfg lit s s1 (fun r => Row.puts E.cfg { r with col := s.topColumn } (s.between vs s.len)) := by
      refine (((Draws.refl (s := s)).emit (.gotoCol (s.topColumn + 1))).trans (hd.of_out)).congr fun r => ?_
      show Row.puts E.cfg { r with col := s.topColumn + 1 - 1 } (s.between vs s.len) = _
      rw [Int.add_sub_cancel]
    refine ⟨_, (hd'.of_out (s2 := { s1 with cursor := s1.len })).emit .eraseEol, fun r hr => ?_⟩
    have hbt : ∀ lo hi, (eraseline { s1 with cursor := s1.len }).between lo hi = s.between lo hi :=
      fun lo hi => between_congr (s := s) (s' := eraseline { s1 with cursor := s1.len }) hm lo hi
    have e1 : s1.viewStart = vs ∧ s1.topColumn = s.topColumn ∧ s1.viewWidth = s.viewWidth ∧
      s1.termWidth = s.termWidth := by rw [e]; exact ⟨rfl, rfl, rfl, rfl⟩
    have hleft : (eraseline { s1 with cursor := s1.len }).between
        (eraseline { s1 with cursor := s1.len }).viewStart
        (eraseline { s1 with cursor := s1.len }).cursor = s.between vs s.len := by
      rw [hbt]; show s.between s1.viewStart s1.len = _; rw [e1.1, hlen]
    have htop : (eraseline { s1 with cursor := s1.len }).topColumn = s.topColumn := e1.2.1
    obtain ⟨h3, h4⟩ := printErase (lit := lit) hS.width (r := { r with col := s.topColumn }) (a := [])
      (start := s.topColumn) (c := s.between vs s.len) (by simp [columns])
      (by intro x hx hx2; simp only [columns] at hx2; omega)
    refine ⟨Shows.of_left ?_ ?_ ?_ ?_ ?_ ?_ (full_at_end rfl), ?_⟩
    · show 0 ≤ s1.viewStart; rw [e1.1]; omega
    · show s1.viewStart ≤ s1.len; rw [e1.1, hlen]; omega
    · exact Int.le_refl _
    · rw [hleft]
      show _ < s1.viewWidth
      rw [e1.2.2.1]; exact v2
    · rw [hleft, htop]; exact h4
    · rw [hleft, htop]; exact h3
    · show (Row.puts E.cfg { r with col := s.topColumn } (s.between vs s.len)).high ≤ max r.high (s1.termWidth - 3)
      apply puts_high (hS.wide _)
      · show r.high ≤ _; omega
      · show s.topColumn + _ ≤ _
        rw [e1.2.2.2, ← St.lim]
        omega

/-- The units `lo..hi` all have width `k`. -/
theorem columns_same {k : Int} (hk : ∀ m ∈ s.mojis, m.width C = k) (ms : List Moji) (h : ∀ m ∈ ms, m ∈ s.mojis) :
    columns C ms = k * ms.length := by
  induction ms with
  | nil => simp [columns]
  | cons m ms ih =>
    show m.width C + columns C ms = _
    rw [ih (fun x hx => h x (by simp [hx])), hk m (h m (by simp)), List.length_cons]
    rw [Int.natCast_add, Int.mul_add]
    omega

theorem between_mem {lo hi : Int} {m : Moji} (h : m ∈ s.between lo hi) : m ∈ s.mojis :=
  List.mem_of_mem_take (List.mem_of_mem_drop h)

/-- `cmdForwardChar` inside the line. -/
theorem forwardChar_keeps (hS : Sane E lit) (hF : Fine E s) {p : St × Result} (hc : s.cursor < s.len)
    (h : cmdForwardChar E s = .ok p) : Keeps E lit s p.1 := by
  have ha := St.noTabs_aligned (E := E) hF.tabs
  unfold cmdForwardChar at h
  rw [if_neg (by omega)] at h
  obtain ⟨w, h0, h⟩ := bind_ok.mp h
  obtain ⟨b0, b1, b2, hw⟩ := widthBetween_columns h0
  split at h
  · rename_i hlt
    obtain ⟨s1, h1, h⟩ := bind_ok.mp h
    cases h
    have e : s1.cursor = s.cursor := by
      obtain ⟨⟨b, o, e⟩, _⟩ := puts_row (lit := lit) ha h1
      rw [e]
    have := advance hS hF.tabs h1 (by rw [← hw]; exact hlt)
    exact this.congr (h3 := by show s1.cursor + 1 = s.cursor + 1; rw [e])
  · rename_i hge
    obtain ⟨c, h1, h⟩ := bind_ok.mp h
    obtain ⟨v, h2, h⟩ := bind_ok.mp h
    obtain ⟨s1, h3, h⟩ := bind_ok.mp h
    have hp : p.1 = { eraseline s1 with cursor := s1.cursor + 1 } := by rw [← pure_ok.mp h]; rfl
    generalize p.1 = q at hp ⊢
    obtain ⟨c0, c1, c2⟩ := index_ok h1
    obtain ⟨v0, v1, v2⟩ := index_ok h2
    replace c0 : 0 ≤ s.cursor := c0
    replace v0 : 0 ≤ s.viewStart := v0
    have hcm : s.mojis[s.cursor.toNat]? = some c.moji := by
      rw [mojis_get]
      have : s.buf[s.cursor.toNat]? = some c := c2
      rw [this]; rfl
    have hvm : s.mojis[s.viewStart.toNat]? = some v.moji := by
      rw [mojis_get]
      have : s.buf[s.viewStart.toNat]? = some v := v2
      rw [this]; rfl
    have hone := between_one hcm
    have honev := between_one hvm
    rw [Int.toNat_of_nonneg c0] at hone
    rw [Int.toNat_of_nonneg v0] at honev
    have hcw : c.moji.width E.cfg < s.viewWidth := hF.narrow _ (List.mem_of_getElem? hcm)
    generalize hvs : (if c.moji.width E.cfg > v.moji.width E.cfg then (gotoHead s).viewStart + 1
      else (gotoHead s).viewStart) + 1 = vs at h3
    obtain ⟨⟨b, o, e⟩, hm, ⟨d0, d1, d2⟩, hd⟩ :=
      puts_row (lit := lit) (s := { gotoHead s with viewStart := vs }) ha h3
    replace d0 : 0 ≤ vs := d0
    replace d1 : vs ≤ s.cursor + 1 := d1
    have hlen : s1.len = s.len := by rw [← mojis_length, ← mojis_length, hm]; rfl
    have hd' : Draws E.cfg lit s s1
        (fun r => Row.puts E.cfg { r with col := s.topColumn } (s.between vs (s.cursor + 1))) := by
      refine (((Draws.refl (s := s)).emit (.gotoCol (s.topColumn + 1))).trans (hd.of_out)).congr fun r => ?_
      show Row.puts E.cfg { r with col := s.topColumn + 1 - 1 } (s.between vs (s.cursor + 1)) = _
      rw [Int.add_sub_cancel]
    have e1 : s1.viewStart = vs ∧ s1.topColumn = s.topColumn ∧ s1.viewWidth = s.viewWidth ∧
      s1.termWidth = s.termWidth ∧ s1.cursor = s.cursor := by rw [e]; exact ⟨rfl, rfl, rfl, rfl, rfl⟩
    have q1 : q.viewStart = vs := by rw [hp]; exact e1.1
    have q2 : q.topColumn = s.topColumn := by rw [hp]; exact e1.2.1
    have q3 : q.viewWidth = s.viewWidth := by rw [hp]; exact e1.2.2.1
    have q4 : q.termWidth = s.termWidth := by rw [hp]; exact e1.2.2.2.1
    have q5 : q.cursor = s.cursor + 1 := by rw [hp]; show s1.cursor + 1 = _; rw [e1.2.2.2.2]
    have q6 : q.mojis = s.mojis := by rw [hp]; exact hm
    have q7 : q.len = s.len := by rw [hp]; exact hlen
    refine Draws.keeps ((hd'.emit .eraseEol).of_out (s2 := q) (by rw [hp]; rfl)) fun r hr => ?_
    have hin := hr.inView hS
    have hlt : s.viewStart < s.cursor := by
      apply Classical.byContradiction
      intro hcon
      have : s.viewStart = s.cursor := by have := hin.mid; omega
      rw [this, hone] at hw
      simp only [columns] at hw
      omega
    -- the columns of what is shown
    have hsp1 : s.between s.viewStart (s.cursor + 1) = s.between s.viewStart s.cursor ++ [c.moji] := by
      rw [← hone]; exact between_split (by omega) (by omega)
    have hsp2 : s.between s.viewStart (s.cursor + 1) = v.moji :: s.between (s.viewStart + 1) (s.cursor + 1) := by
      rw [between_split (mid := s.viewStart + 1) (by omega) (by omega), honev]; rfl
    have hfit : columns E.cfg (s.between vs (s.cursor + 1)) < s.viewWidth := by
      obtain ⟨k, hk⟩ := hF.even
      have hl := hin.fits
      have e3 : columns E.cfg (s.between s.viewStart (s.cursor + 1)) =
          columns E.cfg (s.between s.viewStart s.cursor) + c.moji.width E.cfg := by
        rw [hsp1, columns_append]; simp [columns]
      have e4 : columns E.cfg (s.between s.viewStart (s.cursor + 1)) =
          v.moji.width E.cfg + columns E.cfg (s.between (s.viewStart + 1) (s.cursor + 1)) := by
        rw [hsp2]; rfl
      split at hvs
      · rename_i hcv
        have evs : vs = s.viewStart + 1 + 1 := hvs.symm
        by_cases hcl : s.viewStart + 1 = s.cursor
        · rw [between_empty s (by omega)]
          exact hF.view
        · have hin1 : (s.viewStart + 1).toNat < s.mojis.length := by
            have := mojis_length s; omega
          have hone1 := between_one (List.getElem?_eq_getElem hin1)
          rw [Int.toNat_of_nonneg (by omega)] at hone1
          have e5 : columns E.cfg (s.between (s.viewStart + 1) (s.cursor + 1)) =
              s.mojis[(s.viewStart + 1).toNat].width E.cfg + columns E.cfg (s.between vs (s.cursor + 1)) := by
            rw [between_split (mid := s.viewStart + 1 + 1) (by omega) (by omega), hone1, evs]
            rfl
          have k1 := hk _ (List.mem_of_getElem? hcm)
          have k2 := hk _ (List.mem_of_getElem? hvm)
          have k3 := hk _ (List.getElem_mem hin1)
          omega
      · have evs : vs = s.viewStart + 1 := hvs.symm
        rw [evs]
        omega
    have hbt : ∀ lo hi, q.between lo hi = s.between lo hi := fun lo hi => between_congr q6 lo hi
    have hleft : q.between q.viewStart q.cursor = s.between vs (s.cursor + 1) := by rw [hbt, q1, q5]
    have hright : q.between q.cursor q.len = s.between (s.cursor + 1) s.len := by rw [hbt, q5, q7]
    obtain ⟨h5, h6⟩ := printErase (lit := lit) hS.width (r := { r with col := s.topColumn }) (a := [])
      (start := s.topColumn) (c := s.between vs (s.cursor + 1)) (by simp [columns])
      (by intro x hx hx2; simp only [columns] at hx2; omega)
    refine ⟨Shows.of_left ?_ ?_ ?_ ?_ ?_ ?_ ?_, ?_⟩
    · rw [q1]; exact d0
    · rw [q1, q5]; exact d1
    · rw [q5, q7]; omega
    · rw [hleft, q3]; exact hfit
    · rw [hleft, q2]; exact h6
    · rw [hleft, q2]; exact h5
    · intro hsw m tail em
      rw [hright] at em
      rw [hleft, q3]
      obtain ⟨k, hk⟩ := hsw
      have hk' : ∀ m ∈ s.mojis, m.width E.cfg = k := by
        rw [q6] at hk; exact hk
      have ev : vs = s.viewStart + 1 := by
        rw [if_neg] at hvs
        · exact hvs.symm
        · rw [hk' _ (List.mem_of_getElem? hcm), hk' _ (List.mem_of_getElem? hvm)]; omega
      have hmk : m.width E.cfg = k := by
        apply hk'
        apply between_mem (lo := s.cursor + 1) (hi := s.len)
        rw [em]; simp
      have e4 : columns E.cfg (s.between s.viewStart (s.cursor + 1)) =
          v.moji.width E.cfg + columns E.cfg (s.between (s.viewStart + 1) (s.cursor + 1)) := by
        rw [hsp2]; rfl
      rw [hk' _ (List.mem_of_getElem? hvm)] at e4
      rw [ev]
      omega
    · show (Row.puts E.cfg { r with col := s.topColumn } (s.between vs (s.cursor + 1))).high ≤
        max r.high (q.termWidth - 3)
      apply puts_high (hS.wide _)
      · show r.high ≤ _; omega
      · show s.topColumn + _ ≤ _
        rw [q4, ← St.lim]
        omega

end Readline
