import Verif.Proof.Tabs
import Verif.Proof.RefineCall
/-!
# When commands can panic

`Wp Q x P`: the computation `x` either succeeds with a result satisfying `P` or panics with a
panic satisfying `Q`.
-/
namespace Readline

/-- `x` succeeds with `P` or panics with `Q`. -/
def Wp (Q : Panic → Prop) (x : M α) (P : α → Prop) : Prop :=
  match x with
  | .ok a => P a
  | .error e => Q e

theorem Wp.bind {Q : Panic → Prop} {x : M α} {f : α → M β} {P : β → Prop}
    (h : Wp Q x (fun a => Wp Q (f a) P)) : Wp Q (x >>= f) P := by
  cases x with
  | ok a => exact h
  | error e => exact h

theorem Wp.pure {Q : Panic → Prop} {a : α} {P : α → Prop} (h : P a) :
    Wp Q (Pure.pure a : M α) P := h

theorem Wp.mono {Q : Panic → Prop} {x : M α} {P P' : α → Prop} (h : Wp Q x P)
    (hp : ∀ a, x = .ok a → P a → P' a) : Wp Q x P' := by
  cases x with
  | ok a => exact hp a rfl h
  | error e => exact h

theorem Wp.weaken {Q Q' : Panic → Prop} {x : M α} {P : α → Prop} (h : Wp Q x P)
    (hq : ∀ e, Q e → Q' e) : Wp Q' x P := by
  cases x with
  | ok a => exact h
  | error e => exact hq e h

theorem Wp.ok {Q : Panic → Prop} {x : M α} {P : α → Prop} (h : Wp Q x P) {a : α}
    (hx : x = .ok a) : P a := by subst hx; exact h

theorem Wp.error {Q : Panic → Prop} {x : M α} {P : α → Prop} (h : Wp Q x P) {e : Panic}
    (hx : x = .error e) : Q e := by subst hx; exact h

/-- Cursor and scroll offset are inside the line. -/
def St.inside (s : St) : Prop := 0 ≤ s.viewStart ∧ s.viewStart ≤ s.cursor ∧ s.cursor ≤ s.len

/-- The terminal has no room for the cursor and the widest unit of the line. -/
def St.narrow (C : Cfg) (s : St) : Prop :=
  s.viewWidth ≤ 0 ∨ ∃ c ∈ s.buf, s.viewWidth ≤ c.moji.width C

/-- There is a tab beyond column 32767, or there may be one. -/
def TabBad (E : Env) (s : St) : Prop :=
  (∃ m : Moji, m.width E.cfg < 0) ∨ 32767 < s.viewWidth ∨ 32767 < cellsWidth E.cfg s.buf ∨
  (∃ c ∈ s.buf, c.moji.isZwj = true ∧ 9 ∈ c.moji.write) ∨
  (E.cfg.zwjOk = true ∧ (9 ∈ lineText s.suffixList ∨ ∃ h ∈ E.history, 9 ∈ h))

/-- The panic comes from a tab at a negative column. -/
def Panic.isTab (E : Env) (p : Panic) : Prop := p.kind = .tabPos ∧ TabBad E p.st

/-- The panic comes from a tab at a negative column or from a terminal that is too narrow. -/
def Panic.known (E : Env) (p : Panic) : Prop :=
  (p.kind = .tabPos ∧ TabBad E p.st) ∨ (p.kind = .bounds ∧ p.st.narrow E.cfg)

/-- The panic comes from a completion command whose candidates make it panic. -/
def Panic.crash (c : Cmd) (p : Panic) : Prop :=
  ∃ P, c = .completion P ∧ p.kind = .bounds ∧ p.st.cursor ≤ p.st.len ∧
    Spec.completionOf P.uni P.completer P.postfix_ p.st.before = .crash

theorem Panic.isTab.known {E : Env} (p : Panic) (h : p.isTab E) : p.known E := Or.inl h

/-- What has to be shown of the four things a completion command may do. -/
theorem cmdComplete_wp {E : Env} {P : Completing} {s : St} {Q : Panic → Prop} {R : St × Result → Prop}
    (hcrash : Q ⟨.bounds, s⟩) (h0 : R (s, .cont)) (hbell : R (s.emit (.lit [0x07]), .cont))
    (hlist : ∀ t, Wp Q (repaintAll E (((s.emit (.lit [0x07])).emit (.lit [0x0A])).emit (.lit t))) (fun s => R (s, .cont)))
    (hrep : ∀ (pos : Nat) t, pos < s.cursor.toNat → s.cursor ≤ s.len →
      Wp Q (replaceAndRepaint E s pos t) (fun s => R (s, .cont))) :
    Wp Q (cmdComplete E P s) R := by
  by_cases hc : s.cursor ≤ s.len
  · rw [cmdComplete_eq hc]
    cases hx : Spec.completionOf P.uni P.completer P.postfix_ s.before with
    | crash => exact hcrash
    | nothing => exact h0
    | bell l =>
      unfold Spec.Outcome.call
      cases P.box with
      | none => exact hbell
      | some box =>
        dsimp only
        split
        · exact hbell
        · exact Wp.bind (hlist _)
    | insert pos t =>
      exact Wp.bind (hrep _ _ (Nat.lt_of_lt_of_le (completionOf_pos hx) s.before_length) hc)
  · rw [cmdComplete_beyond hc]
    exact hcrash

/-- The ways a completion command can end without a panic. -/
theorem cmdComplete_ok {E : Env} {P : Completing} {s : St} {p : St × Result} (h : cmdComplete E P s = .ok p) :
    p = (s, .cont) ∨ p = (s.emit (.lit [0x07]), .cont) ∨
    (∃ t s1, repaintAll E (((s.emit (.lit [0x07])).emit (.lit [0x0A])).emit (.lit t)) = .ok s1 ∧ p = (s1, .cont)) ∨
    (∃ (pos : Nat) (t : Bytes) (s1 : St), pos < s.cursor.toNat ∧ s.cursor ≤ s.len ∧
      replaceAndRepaint E s pos t = .ok s1 ∧ p = (s1, .cont)) := by
  have key : Wp (fun _ => True) (cmdComplete E P s) (fun p => p = (s, .cont) ∨ p = (s.emit (.lit [0x07]), .cont) ∨
    (∃ t s1, repaintAll E (((s.emit (.lit [0x07])).emit (.lit [0x0A])).emit (.lit t)) = .ok s1 ∧ p = (s1, .cont)) ∨
    (∃ (pos : Nat) (t : Bytes) (s1 : St), pos < s.cursor.toNat ∧ s.cursor ≤ s.len ∧
      replaceAndRepaint E s pos t = .ok s1 ∧ p = (s1, .cont))) := by
    refine cmdComplete_wp trivial (Or.inl rfl) (Or.inr (Or.inl rfl)) ?_ ?_
    · intro t
      cases hr : repaintAll E (((s.emit (.lit [0x07])).emit (.lit [0x0A])).emit (.lit t)) with
      | error p => trivial
      | ok s1 => exact Or.inr (Or.inr (Or.inl ⟨t, s1, hr, rfl⟩))
    · intro pos t h1 h2
      cases hr : replaceAndRepaint E s pos t with
      | error p => trivial
      | ok s1 => exact Or.inr (Or.inr (Or.inr ⟨pos, t, s1, h1, h2, hr, rfl⟩))
  rw [h] at key
  exact key

/-! ## Drawing -/

theorem slice_wp {Q : Panic → Prop} {s : St} {l : List α} {lo hi : Int} {P : List α → Prop}
    (h1 : 0 ≤ lo) (h2 : lo ≤ hi) (h3 : hi ≤ l.length)
    (hp : P ((l.take hi.toNat).drop lo.toNat)) : Wp Q (slice s l lo hi) P := by
  rw [slice_eq h1 h2 h3]; exact hp

theorem index_wp {Q : Panic → Prop} {s : St} {l : List α} {i : Int} {P : α → Prop}
    (h1 : 0 ≤ i) (h2 : i < l.length) (hp : ∀ a ∈ l, P a) : Wp Q (index s l i) P := by
  unfold index
  rw [if_neg (by omega)]
  have h : i.toNat < l.length := by omega
  rw [List.getElem?_eq_getElem h]
  exact hp _ (List.getElem_mem h)

theorem printMoji_wp {E : Env} (s : St) (m : Moji) (hm : m.printPanics = true → TabBad E s) :
    Wp (Panic.isTab E) (printMoji s m) (fun s' => s' = s.emit (.glyph m)) := by
  unfold printMoji
  split
  · rename_i h; exact ⟨rfl, hm h⟩
  · rfl

theorem putsLoop_wp {E : Env} (cs : List Cell) (c : Color) (s : St)
    (hm : ∀ x ∈ cs, x.moji.printPanics = true → TabBad E s) :
    Wp (Panic.isTab E) (putsLoop cs c s) (fun p => Same s p.1) := by
  induction cs generalizing c s with
  | nil => exact Same.refl s
  | cons x xs ih =>
    unfold putsLoop
    refine Wp.bind (Wp.mono (printMoji_wp _ _ ?_) ?_)
    · intro h
      have := hm x (by simp) h
      split <;> exact this
    · rintro s1 _ rfl
      refine Wp.mono (ih _ _ ?_) ?_
      · intro y hy h
        have := hm y (by simp [hy]) h
        split <;> exact this
      · intro p _ h2
        refine Same.trans ?_ ((Same.emit _ _).trans h2)
        split
        · exact Same.emit _ _
        · exact Same.refl _

/-- In the refreshed line a tab panics only behind 32767 columns. -/
theorem refreshed_tab {E : Env} {s : St} {buf : List Cell} {K : Coloring} {cur : Int} {σ : K.σ}
    (hb : s.buf = refreshLoop E.cfg K cur σ 0 0 buf) (x : Cell)
    (hx : x ∈ s.buf) (h : x.moji.printPanics = true) : TabBad E s := by
  by_cases hneg : ∃ m : Moji, m.width E.cfg < 0
  · exact Or.inl hneg
  · have hw : ∀ m : Moji, 0 ≤ m.width E.cfg := by
      intro m
      by_cases h : 0 ≤ m.width E.cfg
      · exact h
      · exact absurd ⟨m, by omega⟩ hneg
    right; right
    by_cases hz : x.moji.isZwj = true
    · right; left
      exact ⟨x, hx, hz, printPanics_nine h⟩
    · left
      have hok := refresh_tabOk hw K cur σ buf
      rw [← hb] at hok
      obtain ⟨l1, l2, e⟩ := List.append_of_mem hx
      rw [e, List.map_append, List.map_cons] at hok
      have := hok.overflow h (by simpa using hz)
      rw [e, cellsWidth_mojis, List.map_append, mojisWidth_append]
      have := mojisWidth_nonneg hw (List.map Cell.moji (x :: l2))
      omega

theorem refreshColor_wp (E : Env) (s : St) : Wp (Panic.isTab E) (refreshColor E s)
    (fun s' => Same s s' ∧ ∀ x ∈ s'.buf, x.moji.printPanics = true → TabBad E s') := by
  have h := @refreshColor_same E s
  unfold refreshColor at *
  split
  · rename_i hc
    refine ⟨rfl, ?_⟩
    obtain ⟨c, hc, hp⟩ := List.any_eq_true.mp hc
    right; right; right; left
    have hpp : c.moji.printPanics = true := by
      unfold Cell.refreshPanics at hp
      split at hp
      · cases hp
      · simp only [Bool.and_eq_true] at hp; exact hp.2
    refine ⟨c, hc, ?_, printPanics_nine hpp⟩
    cases hz : c.moji.isZwj with
    | true => rfl
    | false =>
      obtain ⟨p, e, _⟩ := printPanics_zwj hpp hz
      simp [Cell.refreshPanics, e] at hp
  · rename_i hc
    rw [if_neg hc] at h
    exact ⟨h rfl, fun x hx hp => refreshed_tab rfl x hx hp⟩

theorem puts_wp (E : Env) (s : St) (lo hi : Int) (h1 : 0 ≤ lo) (h2 : lo ≤ hi) (h3 : hi ≤ s.len) :
    Wp (Panic.isTab E) (puts E s lo hi) (Same s) := by
  unfold puts
  refine Wp.bind (slice_wp h1 h2 h3 ?_)
  refine Wp.bind (Wp.mono (refreshColor_wp _ _) ?_)
  rintro s1 _ ⟨e1, ht⟩
  refine Wp.bind (slice_wp h1 h2 (by rw [e1.length]; exact h3) ?_)
  refine Wp.bind (Wp.mono (putsLoop_wp _ _ _ ?_) ?_)
  · intro x hx hp
    exact ht x (List.mem_of_mem_take (List.mem_of_mem_drop hx)) hp
  intro p _ e2
  apply Wp.pure
  split
  · exact (e1.trans e2).trans (Same.emit _ _)
  · exact e1.trans e2

/-- A printed piece of text panics only beyond column 32767. -/
theorem printed_tab {E : Env} {t : Bytes} {pre post : List Moji} {m : Moji} {w vw : Int}
    (he : stringToMoji E.cfg t = pre ++ m :: post)
    (hw0 : (∀ m : Moji, 0 ≤ m.width E.cfg) → 0 ≤ w)
    (hv : w + mojisWidth E.cfg pre + m.width E.cfg < vw) (h : m.printPanics = true) :
    (∃ m : Moji, m.width E.cfg < 0) ∨ 32767 < vw ∨ (E.cfg.zwjOk = true ∧ 9 ∈ m.write) := by
  by_cases hneg : ∃ m : Moji, m.width E.cfg < 0
  · exact Or.inl hneg
  · have hw : ∀ m : Moji, 0 ≤ m.width E.cfg := by
      intro m
      by_cases h : 0 ≤ m.width E.cfg
      · exact h
      · exact absurd ⟨m, by omega⟩ hneg
    right
    cases hz : E.cfg.zwjOk with
    | true => exact Or.inr ⟨rfl, printPanics_nine h⟩
    | false =>
      left
      have hok := stringToMoji_tabOk hw hz t
      have hmz := stringToMoji_zwj hz t m (by rw [he]; simp)
      rw [he] at hok
      have := hok.overflow h hmz
      have := hw m
      have := hw0 hw
      omega

theorem suffixLoop_wp (E : Env) (vw : Int) (t : Bytes) (pre ms : List Moji) (w : Int) (s : St)
    (he : stringToMoji E.cfg t = pre ++ ms)
    (hw0 : (∀ m : Moji, 0 ≤ m.width E.cfg) → 0 ≤ w)
    (hQ : ((∃ m : Moji, m.width E.cfg < 0) ∨ 32767 < vw ∨
      (E.cfg.zwjOk = true ∧ ∃ m ∈ stringToMoji E.cfg t, 9 ∈ m.write)) → TabBad E s) :
    Wp (Panic.isTab E) (suffixLoop E.cfg vw ms (w + mojisWidth E.cfg pre) s) (Same s) := by
  induction ms generalizing pre s with
  | nil => exact Same.refl s
  | cons m ms ih =>
    unfold suffixLoop
    dsimp only
    split
    · exact Same.refl s
    · rename_i hlt
      refine Wp.bind (Wp.mono (printMoji_wp _ _ ?_) ?_)
      · intro hp
        apply hQ
        rcases printed_tab (vw := vw) he hw0 (by omega) hp with h | h | ⟨h1, h2⟩
        · exact Or.inl h
        · exact Or.inr (Or.inl h)
        · exact Or.inr (Or.inr ⟨h1, m, by rw [he]; simp, h2⟩)
      · rintro s1 _ rfl
        have e1 : w + mojisWidth E.cfg pre + m.width E.cfg = w + mojisWidth E.cfg (pre ++ [m]) := by
          rw [mojisWidth_append]
          simp [mojisWidth]
          omega
        rw [e1]
        refine Wp.mono (ih (pre ++ [m]) _ (by rw [he]; simp) hQ) ?_
        intro s2 _ h2
        exact (Same.emit _ _).trans h2

theorem drawLoop_eq (C : Cfg) (vw : Int) (ms : List Moji) (w : Int) (s : St) :
    drawLoop C vw ms w s = suffixLoop C vw ms w s := by
  induction ms generalizing w s with
  | nil => rfl
  | cons m ms ih =>
    unfold drawLoop suffixLoop
    dsimp only
    split
    · rfl
    · congr 1
      funext s1
      exact ih _ _

theorem drawLoop_wp (E : Env) (vw : Int) (t : Bytes) (s : St)
    (hQ : ((∃ m : Moji, m.width E.cfg < 0) ∨ 32767 < vw ∨
      (E.cfg.zwjOk = true ∧ ∃ m ∈ stringToMoji E.cfg t, 9 ∈ m.write)) → TabBad E s) :
    Wp (Panic.isTab E) (drawLoop E.cfg vw (stringToMoji E.cfg t) 0 s) (Same s) := by
  rw [drawLoop_eq]
  exact suffixLoop_wp E vw t [] _ 0 s rfl (fun _ => Int.le_refl _) hQ

theorem viewLoop_le (C : Cfg) (vw : Int) (cs : List Cell) (w : Int) (n : Nat) :
    n ≤ (viewLoop C vw cs w n).1 ∧ (viewLoop C vw cs w n).1 ≤ n + cs.length := by
  induction cs generalizing w n with
  | nil => simp [viewLoop]
  | cons c cs ih =>
    unfold viewLoop
    dsimp only
    split
    · simp
    · have := ih (w + c.moji.width C) (n + 1)
      simp only [List.length_cons]
      omega

theorem viewLoop_width {C : Cfg} (hw : ∀ m : Moji, 0 ≤ m.width C) (vw : Int) (cs : List Cell)
    (w : Int) (n : Nat) (h : 0 ≤ w) : 0 ≤ (viewLoop C vw cs w n).2 := by
  induction cs generalizing w n with
  | nil => exact h
  | cons c cs ih =>
    unfold viewLoop
    dsimp only
    split
    · exact h
    · exact ih _ _ (by have := hw c.moji; omega)

theorem getView2_wp {Q : Panic → Prop} (E : Env) (s : St) (h : s.inside) :
    Wp Q (getView2 E s) (fun p => s.viewStart + p.1 ≤ s.len ∧
      ((∀ m : Moji, 0 ≤ m.width E.cfg) → 0 ≤ p.2)) := by
  obtain ⟨h1, h2, h3⟩ := h
  unfold getView2 getView
  refine Wp.bind (Wp.bind (slice_wp h1 (by omega) (by simp [St.len]) ?_))
  refine Wp.pure ?_
  refine Wp.bind (slice_wp h1 h2 h3 ?_)
  apply Wp.pure
  have := (viewLoop_le E.cfg s.viewWidth ((s.buf.take s.len.toNat).drop s.viewStart.toNat) 0 0).2
  simp only [List.length_drop, List.length_take] at this
  refine ⟨?_, fun hw => viewLoop_width hw _ _ _ _ (Int.le_refl _)⟩
  simp only [St.len] at *
  omega

theorem Same.inside {s s' : St} (h : Same s s') (hi : s.inside) : s'.inside := by
  have hl := h.len
  obtain ⟨_, b, o, rfl⟩ := h
  unfold St.inside at *
  rw [hl]
  exact hi

theorem Same.view {s s' : St} (h : Same s s') : s'.viewStart = s.viewStart ∧ s'.cursor = s.cursor
    ∧ s'.histPtr = s.histPtr ∧ s'.undoes = s.undoes ∧ s'.input = s.input := by
  obtain ⟨_, b, o, rfl⟩ := h
  exact ⟨rfl, rfl, rfl, rfl, rfl⟩

theorem repaintNoSuffix_wp (E : Env) (s : St) (h : s.inside)
    (hsfx : E.predictColor.1 ≠ [] → ∃ t, s.suffixList = stringToMoji E.cfg t) :
    Wp (Panic.isTab E) (repaintNoSuffix E s) (Same s) := by
  have hp : ∀ s', repaintNoSuffix E s = .ok s' → Same s s' := fun s' h => (repaintNoSuffix_same h).1
  refine Wp.mono (P := fun _ => True) ?_ (fun s' hs _ => hp s' hs)
  unfold repaintNoSuffix
  refine Wp.bind (Wp.mono (getView2_wp E s h) ?_)
  rintro ⟨n, w⟩ _ ⟨hn, hw0⟩
  obtain ⟨h1, h2, h3⟩ := h
  refine Wp.bind (Wp.mono (puts_wp E (gotoHead s) _ _ h1
    (by show s.viewStart ≤ s.viewStart + _; omega) hn) ?_)
  intro s1 _ e1
  have hi1 : s1.inside := e1.inside ⟨h1, h2, h3⟩
  have key : ∀ s2 : St, Same s1 s2 →
      Wp (Panic.isTab E) (puts E (gotoHead (eraseline s2)) (gotoHead (eraseline s2)).viewStart
        (gotoHead (eraseline s2)).cursor) (fun _ => True) := by
    intro s2 e2
    obtain ⟨g1, g2, g3⟩ := e2.inside hi1
    exact Wp.mono (puts_wp E (gotoHead (eraseline s2)) _ _ g1 g2 g3) (fun _ _ _ => trivial)
  refine Wp.bind ?_
  split
  · rename_i hpc
    have hs1 : s1.suffixList = s.suffixList := by
      obtain ⟨_, b, o, rfl⟩ := e1; rfl
    obtain ⟨t, ht⟩ := hsfx hpc.1
    rw [← hs1] at ht
    have hvis : ∃ t', (s1.emit (.lit E.predictColor.1)).visibleSuffix E = stringToMoji E.cfg t' ∧
        ∀ m ∈ stringToMoji E.cfg t', m ∈ s1.suffixList := by
      unfold St.visibleSuffix
      rw [if_neg hpc.1]
      split
      · exact ⟨[], by rw [stringToMoji, stringToMojiLoop]; rfl, by
          rw [stringToMoji, stringToMojiLoop]; simp⟩
      · exact ⟨t, ht, by rw [← ht]; exact fun m hm => hm⟩
    obtain ⟨t', hv, hmem⟩ := hvis
    dsimp only
    rw [hv]
    have hsl := suffixLoop_wp E (s1.emit (.lit E.predictColor.1)).viewWidth t' [] _ w
      (s1.emit (.lit E.predictColor.1)) rfl hw0 (by
        rintro (h | h | ⟨h, m, hm, h9⟩)
        · exact Or.inl h
        · exact Or.inr (Or.inl h)
        · refine Or.inr (Or.inr (Or.inr (Or.inr ⟨h, Or.inl ?_⟩)))
          exact List.mem_flatMap.mpr ⟨m, hmem m hm, h9⟩)
    rw [show w + mojisWidth E.cfg [] = w by simp [mojisWidth]] at hsl
    refine Wp.bind (Wp.mono hsl ?_)
    intro s3 _ e3
    apply Wp.pure
    exact key _ ((Same.emit _ _).trans (e3.trans (Same.emit _ _)))
  · exact Wp.pure (key _ (Same.refl _))

theorem updateSuffix_fields (E : Env) (s : St) : (updateSuffix E s).viewStart = s.viewStart ∧
    (updateSuffix E s).cursor = s.cursor ∧ (updateSuffix E s).buf = s.buf ∧
    (updateSuffix E s).viewWidth = s.viewWidth := by
  unfold updateSuffix
  split
  · exact ⟨rfl, rfl, rfl, rfl⟩
  · split <;> exact ⟨rfl, rfl, rfl, rfl⟩

theorem updateSuffix_inside {E : Env} {s : St} : (updateSuffix E s).inside ↔ s.inside := by
  obtain ⟨h1, h2, h3, _⟩ := updateSuffix_fields E s
  simp only [St.inside, St.len, h1, h2, h3]

theorem updateSuffix_narrow {E : Env} {s : St} :
    (updateSuffix E s).narrow E.cfg ↔ s.narrow E.cfg := by
  obtain ⟨h1, h2, h3, h4⟩ := updateSuffix_fields E s
  simp only [St.narrow, h3, h4]

theorem updateSuffix_sfx (E : Env) (s : St) (h : E.predictColor.1 ≠ []) :
    ∃ t, (updateSuffix E s).suffixList = stringToMoji E.cfg t := by
  unfold updateSuffix
  rw [if_neg h]
  split
  · exact ⟨[], by rw [stringToMoji, stringToMojiLoop]; rfl⟩
  · exact ⟨_, rfl⟩

theorem repaint_wp (E : Env) (s : St) (h : s.inside) :
    Wp (Panic.isTab E) (repaint E s) (fun s' => Same (updateSuffix E s) s' ∧ s'.inside) :=
  Wp.mono (repaintNoSuffix_wp E _ (updateSuffix_inside.mpr h) (updateSuffix_sfx E s))
    (fun _ _ e => ⟨e, e.inside (updateSuffix_inside.mpr h)⟩)

/-! ## Scrolling -/

theorem cellsWidth_take_drop_succ (C : Cfg) (l : List Cell) (a b : Nat) (h1 : a < b)
    (h2 : b ≤ l.length) :
    cellsWidth C ((l.take b).drop a) = (l[a]'(by omega)).moji.width C +
      cellsWidth C ((l.take b).drop (a + 1)) := by
  have h : a < (l.take b).length := by simp; omega
  rw [List.drop_eq_getElem_cons h]
  simp [cellsWidth]

theorem cellsWidth_extend (C : Cfg) (l : List Cell) (a b : Nat) (h1 : a ≤ b) (h2 : b < l.length) :
    cellsWidth C ((l.take (b + 1)).drop a) = cellsWidth C ((l.take b).drop a)
      + l[b].moji.width C := by
  rw [List.take_succ_eq_append_getElem h2, List.drop_append_of_le_length (by simp; omega)]
  simp [cellsWidth]

theorem resetInner_spec (C : Cfg) (buf : List Cell) (vw : Int) (i : Nat) (hi : i < buf.length)
    (hw : ∀ c ∈ buf, c.moji.width C < vw) (fuel vs : Nat) (hv : vs ≤ i) (hf : i - vs < fuel) (w : Int)
    (hwe : w = cellsWidth C ((buf.take (i + 1)).drop vs)) :
    ∃ vs', resetInner C buf vw fuel vs w = (vs', some (cellsWidth C ((buf.take (i + 1)).drop vs')))
      ∧ vs' ≤ i := by
  induction fuel generalizing vs w with
  | zero => omega
  | succ fuel ih =>
    unfold resetInner
    split
    · rename_i hc
      have hne : vs ≠ i := by
        rintro rfl
        rw [cellsWidth_take_drop_succ C buf vs (vs + 1) (by omega) (by omega)] at hwe
        have := hw _ (List.getElem_mem hi)
        have h0 : (buf.take (vs + 1)).drop (vs + 1) = [] := by
          apply List.drop_eq_nil_of_le; simp; omega
        rw [h0] at hwe
        simp [cellsWidth] at hwe
        omega
      have hlt : vs < i := by omega
      rw [List.getElem?_eq_getElem (by omega)]
      apply ih (vs + 1) (by omega) (by omega)
      rw [cellsWidth_take_drop_succ C buf vs (i + 1) (by omega) (by omega)] at hwe
      omega
    · rw [hwe]; exact ⟨vs, rfl, hv⟩

theorem resetOuter_le (C : Cfg) (buf : List Cell) (vw cursor : Int)
    (hw : ∀ c ∈ buf, c.moji.width C < vw) (cs : List Cell) (i vs : Nat) (w : Int)
    (hcs : cs = buf.drop i) (hi : i ≤ buf.length) (hv : vs ≤ i) (hvc : (vs : Int) ≤ cursor)
    (hwe : w = cellsWidth C ((buf.take i).drop vs)) :
    (resetOuter C buf vw cursor cs i vs w : Int) ≤ cursor := by
  induction cs generalizing i vs w with
  | nil => exact hvc
  | cons c cs ih =>
    have hlt : i < buf.length := by
      rcases Nat.lt_or_ge i buf.length with h | h
      · exact h
      · rw [List.drop_eq_nil_of_le h] at hcs; cases hcs
    rw [List.drop_eq_getElem_cons hlt] at hcs
    simp only [List.cons.injEq] at hcs
    unfold resetOuter
    split
    · rename_i hc
      obtain ⟨vs', h1, h2⟩ := resetInner_spec C buf vw i hlt hw (buf.length + 1) vs hv (by omega)
        (w + c.moji.width C) (by rw [cellsWidth_extend C buf vs i hv hlt, hwe, hcs.1])
      rw [h1]
      simp only
      have := ih (i + 1) vs' (cellsWidth C ((buf.take (i + 1)).drop vs')) hcs.2 (by omega) (by omega)
        (by omega) rfl
      simpa using this
    · exact hvc

theorem resetViewStart_inside (E : Env) (s : St) (h1 : 0 ≤ s.cursor) (h2 : s.cursor ≤ s.len) :
    (resetViewStart E s).inside ∨ (resetViewStart E s).narrow E.cfg := by
  by_cases hn : ∀ c ∈ s.buf, c.moji.width E.cfg < s.viewWidth
  · left
    have := resetOuter_le E.cfg s.buf s.viewWidth s.cursor hn s.buf 0 0 0 (by simp) (by simp)
      (by simp) (by simpa using h1) (by simp [cellsWidth])
    exact ⟨by show (0 : Int) ≤ ((_ : Nat) : Int); omega, this, h2⟩
  · right; right
    simp only [Classical.not_forall] at hn
    obtain ⟨c, hc, hw⟩ := hn
    exact ⟨c, hc, by show s.viewWidth ≤ _; omega⟩

/-- A repaint with a scroll offset that is not known to be inside the line. -/
theorem repaint_narrow_wp (E : Env) (s : St) (h1 : 0 ≤ s.viewStart) (h2 : 0 ≤ s.cursor)
    (h3 : s.cursor ≤ s.len) (h : s.inside ∨ s.narrow E.cfg) :
    Wp (Panic.known E) (repaint E s) (fun s' => Same (updateSuffix E s) s' ∧ s'.inside) := by
  by_cases hi : s.inside
  · exact Wp.weaken (repaint_wp E s hi) Panic.isTab.known
  · have hn : s.narrow E.cfg := h.resolve_left hi
    obtain ⟨g1, g2, g3, g4⟩ := updateSuffix_fields E s
    have hlt : s.cursor < s.viewStart := by
      rcases Int.lt_or_le s.cursor s.viewStart with h | h
      · exact h
      · exact absurd ⟨h1, h, h3⟩ hi
    have hs : (updateSuffix E s).narrow E.cfg := updateSuffix_narrow.mpr hn
    have : ∃ e, repaint E s = .error e ∧ e.kind = .bounds ∧ e.st = updateSuffix E s := by
      unfold repaint repaintNoSuffix getView2 getView slice
      simp only [g1, g2, St.len, g3]
      by_cases hv : 0 ≤ s.viewStart ∧ s.viewStart ≤ (s.buf.length : Int)
      · rw [if_pos hv, if_pos (Int.le_refl _), if_neg (by omega)]
        exact ⟨_, rfl, rfl, rfl⟩
      · rw [if_neg hv]
        exact ⟨_, rfl, rfl, rfl⟩
    obtain ⟨e, he, hk, hst⟩ := this
    rw [he]
    right
    rw [hst]
    exact ⟨hk, hs⟩

theorem resetRepaint_wp (E : Env) (s : St) (h1 : 0 ≤ s.cursor) (h2 : s.cursor ≤ s.len) :
    Wp (Panic.known E) (repaint E (resetViewStart E s)) (fun s' => s'.inside) := by
  refine Wp.mono (repaint_narrow_wp E _ ?_ h1 h2 (resetViewStart_inside E s h1 h2))
    (fun _ _ h => h.2)
  show (0 : Int) ≤ ((_ : Nat) : Int)
  omega

end Readline
