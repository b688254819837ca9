import Verif.Proof.VisSession
import Verif.Proof.Invariant
import Verif.Proof.Memory
/-!
# Two memories

Two runs that differ only in how the arrays are laid out go on alike: the cells they read have been cells
of the line, so they are the same in both.
-/
namespace Readline

/-- TwoMem runs succeed and are related, or both panic after writing the same.  Unless `X`, they panic in the same
way, and not because of a cell that has never been a cell of the line. -/
def Lock (X : Prop) (R : α → β → Prop) : HM α → HM β → Prop
  | .ok a, .ok b => R a b
  | .error e, .error e' => e.2.st.out = e'.2.st.out ∧ (X ∨ e.1 = e'.1 ∧ ∃ k, e.1 = .go k)
  | _, _ => False

variable {X : Prop}

theorem Lock.bind {R : α → β → Prop} {S : γ → δ → Prop} {x : HM α} {y : HM β} {f : α → HM γ} {g : β → HM δ}
    (h : Lock X R x y) (k : ∀ a b, x = .ok a → R a b → Lock X S (f a) (g b)) : Lock X S (x >>= f) (y >>= g) := by
  cases x with
  | ok a =>
    cases y with
    | ok b => exact k a b rfl h
    | error e => exact h.elim
  | error e =>
    cases y with
    | ok b => exact h.elim
    | error e' => exact h

theorem Lock.mono {R S : α → β → Prop} {x : HM α} {y : HM β} (h : Lock X R x y) (k : ∀ a b, R a b → S a b) :
    Lock X S x y := by
  cases x <;> cases y <;> first | exact k _ _ h | exact h

/-- Code that does not touch the memory. -/
theorem Lock.run (m m' : Mem) (x : M α) : Lock X (fun a b => a = b ∧ x = .ok a) (m.run x) (m'.run x) := by
  cases x with
  | ok a => exact ⟨rfl, rfl⟩
  | error e => exact ⟨rfl, Or.inr ⟨rfl, _, rfl⟩⟩

/-- The two arrays behind a line of `n` cells agree up to cell `H`, and these cells have been cells of the
line. -/
def Backed (n H : Nat) (sp sp' : List (Option Cell)) : Prop :=
  ∃ (kept : List Cell) (rest rest' : List (Option Cell)),
    sp = kept.map some ++ rest ∧ sp' = kept.map some ++ rest' ∧ H = n + kept.length

theorem Backed.le {n H : Nat} {sp sp' : List (Option Cell)} (h : Backed n H sp sp') : n ≤ H := by
  obtain ⟨_, _, _, _, _, h⟩ := h; omega

/-- Undo does not go back to a position behind these cells. -/
structure Pinned (H : Nat) (s : St) (sp sp' : List (Option Cell)) : Prop where
  backed : Backed s.buf.length H sp sp'
  undoes : ∀ u ∈ s.undoes, u.pos ≤ (H : Int)

theorem Pinned.le {H : Nat} {s : St} {sp sp' : List (Option Cell)} (h : Pinned H s sp sp') : s.buf.length ≤ H := h.backed.le

theorem Pinned.congr {H : Nat} {s t : St} {sp sp' : List (Option Cell)} (h : Pinned H s sp sp')
    (hb : t.buf.length = s.buf.length := by rfl) (hu : t.undoes = s.undoes := by rfl) : Pinned H t sp sp' :=
  ⟨hb ▸ h.backed, hu ▸ h.undoes⟩

/-- Two memories for one state. -/
def PinnedAt (H : Nat) (c : Int) (a b : Mem) : Prop := b.st = a.st ∧ Pinned H a.st a.spare b.spare ∧ a.st.cursor = c

theorem Lock.held {H : Nat} {c : Int} {S : γ → δ → Prop} {x y : HM Mem} {f : Mem → HM γ} {g : Mem → HM δ}
    (h : Lock X (PinnedAt H c) x y)
    (k : ∀ s sp sp', Pinned H s sp sp' → s.cursor = c → Lock X S (f ⟨s, sp⟩) (g ⟨s, sp'⟩)) :
    Lock X S (x >>= f) (y >>= g) := by
  refine h.bind fun a b _ hr => ?_
  obtain ⟨s, sp⟩ := a
  obtain ⟨s', sp'⟩ := b
  obtain ⟨h1, h2, h3⟩ := hr
  cases h1
  exact k _ _ _ h2 h3

/-- Code that does not touch the memory. -/
theorem Lock.same {S : γ → δ → Prop} (m m' : Mem) {x : M α} {f : α → HM γ} {g : α → HM δ}
    (k : ∀ a, x = .ok a → Lock X S (f a) (g a)) : Lock X S (m.run x >>= f) (m'.run x >>= g) := by
  refine (Lock.run m m' x).bind fun a b _ hr => ?_
  obtain ⟨rfl, ha⟩ := hr
  exact k a ha

theorem Lock.eq {S : γ → δ → Prop} {x y : HM α} {f : α → HM γ} {g : α → HM δ} (h : Lock X Eq x y)
    (k : ∀ a, x = .ok a → Lock X S (f a) (g a)) : Lock X S (x >>= f) (y >>= g) := by
  refine h.bind fun a b hx hr => ?_
  cases hr
  exact k a hx

/-- A slice of cells that have been cells of the line. -/
theorem slice_lock {H : Nat} {s : St} {sp sp' : List (Option Cell)} (h : Pinned H s sp sp') {lo hi : Int}
    (hh : hi ≤ H) :
    Lock X (fun a b => a = b ∧ ∃ cs : List Cell, a = cs.map some) (memSlice ⟨s, sp⟩ lo hi) (memSlice ⟨s, sp'⟩ lo hi) := by
  obtain ⟨⟨kept, rest, rest', rfl, rfl, rfl⟩, _⟩ := h
  have key : ∀ rest, (⟨s, kept.map some ++ rest⟩ : Mem).array = (s.buf ++ kept).map some ++ rest := by
    intro rest
    simp [Mem.array]
  unfold memSlice
  rw [key, key]
  have hl : ∀ rest : List (Option Cell), hi ≤ (((s.buf ++ kept).map some ++ rest).length : Int) := by
    intro rest
    simp only [List.length_append, List.length_map]
    omega
  by_cases hc : 0 ≤ lo ∧ lo ≤ hi
  · rw [if_pos ⟨hc.1, hc.2, hl _⟩, if_pos ⟨hc.1, hc.2, hl _⟩]
    have ht : ∀ rest : List (Option Cell), ((s.buf ++ kept).map some ++ rest).take hi.toNat =
        ((s.buf ++ kept).take hi.toNat).map some := by
      intro rest
      rw [List.take_append_of_le_length (by simp only [List.length_map, List.length_append]; omega), List.map_take]
    rw [ht, ht]
    exact ⟨rfl, _, (List.map_drop ..).symm⟩
  · rw [if_neg fun h => hc ⟨h.1, h.2.1⟩, if_neg fun h => hc ⟨h.1, h.2.1⟩]
    exact ⟨rfl, Or.inr ⟨rfl, _, rfl⟩⟩

theorem width_lock {E : Env} {H : Nat} {s : St} {sp sp' : List (Option Cell)} (h : Pinned H s sp sp') {lo hi : Int}
    (hh : hi ≤ H) : Lock X Eq (memWidth E ⟨s, sp⟩ lo hi) (memWidth E ⟨s, sp'⟩ lo hi) := by
  unfold memWidth
  refine (slice_lock h hh).bind fun a b _ hr => ?_
  obtain ⟨rfl, cs, rfl⟩ := hr
  rw [live_some, live_some]
  exact rfl

theorem sub_lock {H : Nat} {s : St} {sp sp' : List (Option Cell)} (h : Pinned H s sp sp') {lo hi : Int}
    (hh : hi ≤ H) : Lock X Eq (memSub ⟨s, sp⟩ lo hi) (memSub ⟨s, sp'⟩ lo hi) := by
  unfold memSub
  refine (slice_lock h hh).bind fun a b _ hr => ?_
  obtain ⟨rfl, cs, rfl⟩ := hr
  rw [live_some, live_some]
  exact rfl

theorem sub_range {m : Mem} {lo hi : Int} {t : Bytes} (h : memSub m lo hi = .ok t) : 0 ≤ lo ∧ lo ≤ hi := by
  unfold memSub memSlice at h
  split at h
  · rename_i h1; exact ⟨h1.1, h1.2.1⟩
  · cases h

theorem wordTop_lock {E : Env} {H : Nat} {s : St} {sp sp' : List (Option Cell)} (h : Pinned H s sp sp') (hc : s.cursor ≤ H) :
    Lock X Eq (memWordTop E ⟨s, sp⟩) (memWordTop E ⟨s, sp'⟩) := by
  unfold memWordTop
  refine (slice_lock h hc).bind fun a b _ hr => ?_
  obtain ⟨rfl, _⟩ := hr
  exact rfl

theorem putsLoop_lock {cs : List Cell} {col : Color} {H : Nat} {s : St} {sp sp' : List (Option Cell)}
    (h : Pinned H s sp sp') :
    Lock X (fun a b => PinnedAt H s.cursor a.1 b.1 ∧ a.2 = b.2) (memPutsLoop (cs.map some) col ⟨s, sp⟩)
      (memPutsLoop (cs.map some) col ⟨s, sp'⟩) := by
  induction cs generalizing col s with
  | nil => exact ⟨⟨rfl, h, rfl⟩, rfl⟩
  | cons c cs ih =>
    simp only [List.map_cons, memPutsLoop]
    refine Lock.same _ _ fun a ha => ?_
    obtain ⟨t, e⟩ := printMoji_eq ha
    have hb : a.buf.length = s.buf.length := by rw [e]; split <;> rfl
    have hu : a.undoes = s.undoes := by rw [e]; split <;> rfl
    have hc : a.cursor = s.cursor := by rw [e]; split <;> rfl
    refine (ih (col := c.color) (s := a) (h.congr hb hu)).mono fun p q h => ?_
    rw [hc] at h
    exact h

theorem puts_lock {E : Env} {H : Nat} {s : St} {sp sp' : List (Option Cell)} (h : Pinned H s sp sp') {lo hi : Int}
    (hh : hi ≤ H) : Lock X (PinnedAt H s.cursor) (memPuts E ⟨s, sp⟩ lo hi) (memPuts E ⟨s, sp'⟩ lo hi) := by
  unfold memPuts
  refine (slice_lock h hh).bind fun _ _ _ _ => ?_
  refine Lock.same _ _ fun a ha => ?_
  have e := refreshColor_eq ha
  have hl : a.buf.length = s.buf.length := by rw [e]; exact refreshed_length E s
  have hc : a.cursor = s.cursor := by rw [e]
  have hu : a.undoes = s.undoes := by rw [e]
  have h1 : Pinned H a sp sp' := h.congr hl hu
  refine (slice_lock (s := a) h1 hh).bind fun x y _ hr => ?_
  obtain ⟨rfl, cs, rfl⟩ := hr
  refine (putsLoop_lock h1).bind fun p q _ hp => ?_
  obtain ⟨⟨s1, p1⟩, c1⟩ := p
  obtain ⟨⟨s2, p2⟩, c2⟩ := q
  obtain ⟨⟨h3, h4, h5⟩, h7⟩ := hp
  cases h7
  cases h3
  dsimp only at h4 h5 ⊢
  split
  · exact ⟨rfl, h4.congr, h5.trans hc⟩
  · exact ⟨rfl, h4, h5.trans hc⟩

theorem getView_le {E : Env} {s : St} {n : Nat} {w : Int} (h : getView E s = .ok (n, w)) :
    s.viewStart + n ≤ s.buf.length := by
  unfold getView at h
  obtain ⟨v, hv, hr⟩ := bind_ok.mp h
  obtain ⟨h1, h2, h3, h4⟩ := slice_ok hv
  have he : (viewLoop E.cfg s.viewWidth v 0 0) = (n, w) := by injection hr
  have hl := viewLoop_le E.cfg s.viewWidth v 0 0
  rw [he] at hl
  have : v.length = s.len.toNat - s.viewStart.toNat := by
    rw [h4]
    simp only [List.length_drop, List.length_take]
    unfold St.len
    omega
  unfold St.len at *
  dsimp only at hl
  omega

theorem getView2_lock {E : Env} {H : Nat} {s : St} {sp sp' : List (Option Cell)} (h : Pinned H s sp sp') (hc : s.cursor ≤ H) :
    Lock X (fun a b => a = b ∧ s.viewStart + a.1 ≤ s.buf.length) (memGetView2 E ⟨s, sp⟩) (memGetView2 E ⟨s, sp'⟩) := by
  unfold memGetView2
  refine Lock.same _ _ fun a ha => ?_
  refine (slice_lock h hc).bind fun _ _ _ _ => ?_
  exact ⟨rfl, getView_le ha⟩

theorem suffixLoop_out {C : Cfg} {vw : Int} {ms : List Moji} {w : Int} {s s' : St}
    (h : suffixLoop C vw ms w s = .ok s') : ∃ o, s' = { s with out := o } := by
  induction ms generalizing w s with
  | nil => cases h; exact ⟨_, rfl⟩
  | cons m ms ih =>
    unfold suffixLoop at h
    dsimp only at h
    split at h
    · cases h; exact ⟨_, rfl⟩
    · obtain ⟨s1, h1, h2⟩ := bind_ok.mp h
      obtain ⟨t, rfl⟩ := printMoji_eq h1
      obtain ⟨o, rfl⟩ := ih h2
      exact ⟨o, rfl⟩

theorem repaintNoSuffix_lock {E : Env} {H : Nat} {s : St} {sp sp' : List (Option Cell)} (h : Pinned H s sp sp')
    (hc : s.cursor ≤ H) :
    Lock X (PinnedAt H s.cursor) (memRepaintNoSuffix E ⟨s, sp⟩) (memRepaintNoSuffix E ⟨s, sp'⟩) := by
  unfold memRepaintNoSuffix
  refine (getView2_lock h hc).bind fun a b _ hr => ?_
  obtain ⟨rfl, hn⟩ := hr
  obtain ⟨n, w⟩ := a
  have hle := h.le
  have h0 : Pinned H (gotoHead s) sp sp' := h.congr
  have hn' : s.viewStart + n ≤ H := by omega
  refine (puts_lock (s := gotoHead s) h0 hn').held fun t p q h1 hc1 => ?_
  refine Lock.held (H := H) (c := s.cursor) ?_ fun t p q h1 hc1 => ?_
  · dsimp only
    split
    · refine Lock.same _ _ fun a ha => ?_
      obtain ⟨o, rfl⟩ := suffixLoop_out ha
      exact ⟨rfl, h1.congr, hc1⟩
    · exact ⟨rfl, h1, hc1⟩
  · have h4 : Pinned H (gotoHead (eraseline t)) p q := h1.congr
    have hc2 : (gotoHead (eraseline t)).cursor ≤ (H : Int) := by
      show t.cursor ≤ (H : Int)
      rw [hc1]; exact hc
    refine (puts_lock (s := gotoHead (eraseline t)) h4 hc2).mono fun p q hp => ?_
    exact ⟨hp.1, hp.2.1, hp.2.2.trans hc1⟩

theorem updateSuffix_rest (E : Env) (s : St) : (updateSuffix E s).buf = s.buf ∧ (updateSuffix E s).cursor = s.cursor ∧
    (updateSuffix E s).undoes = s.undoes := by
  unfold updateSuffix
  split
  · exact ⟨rfl, rfl, rfl⟩
  · split <;> exact ⟨rfl, rfl, rfl⟩

theorem repaint_lock {E : Env} {H : Nat} {s : St} {sp sp' : List (Option Cell)} (h : Pinned H s sp sp')
    (hc : s.cursor ≤ H) : Lock X (PinnedAt H s.cursor) (memRepaint E ⟨s, sp⟩) (memRepaint E ⟨s, sp'⟩) := by
  obtain ⟨e1, e2, e3⟩ := updateSuffix_rest E s
  have h0 : Pinned H (updateSuffix E s) sp sp' := h.congr (by rw [e1]) e3
  have := repaintNoSuffix_lock (X := X) (E := E) h0 (by rw [e2]; exact hc)
  rw [e2] at this
  exact this

/-! ## Changes of the line -/

theorem Backed.append {n H : Nat} {sp sp' : List (Option Cell)} (h : Backed n H sp sp') {s : St}
    (hn : s.buf.length = n) (G G' : Grow) (k : Nat) :
    Backed (n + k) (max H (n + k)) (appendSpare G ⟨s, sp⟩ k) (appendSpare G' ⟨s, sp'⟩ k) := by
  obtain ⟨kept, rest, rest', rfl, rfl, rfl⟩ := h
  by_cases hk : k < kept.length
  · refine ⟨kept.drop k, rest, rest', ?_, ?_, by rw [List.length_drop]; omega⟩
    · unfold appendSpare
      dsimp only
      rw [if_pos (by simp only [List.length_append, List.length_map]; omega),
        List.drop_append_of_le_length (by rw [List.length_map]; omega), List.map_drop]
    · unfold appendSpare
      dsimp only
      rw [if_pos (by simp only [List.length_append, List.length_map]; omega),
        List.drop_append_of_le_length (by rw [List.length_map]; omega), List.map_drop]
  · exact ⟨[], _, _, rfl, rfl, by simp only [List.length_nil]; omega⟩

theorem Backed.drop {n H : Nat} {sp sp' : List (Option Cell)} (h : Backed n H sp sp') (cs : List Cell) {n' : Nat}
    (hn : n' + cs.length = n) : Backed n' H (cs.map some ++ sp) (cs.map some ++ sp') := by
  obtain ⟨kept, rest, rest', rfl, rfl, rfl⟩ := h
  exact ⟨cs ++ kept, rest, rest', by simp, by simp, by simp only [List.length_append]; omega⟩

theorem insert_lock {G G' : Grow} {H : Nat} {s : St} {sp sp' : List (Option Cell)} (h : Pinned H s sp sp') (pos : Int)
    (cs : List Cell) :
    Lock X (fun a b => (0 ≤ pos ∧ pos ≤ s.buf.length) ∧ PinnedAt (max H (s.buf.length + cs.length)) s.cursor a b)
      (memInsert G ⟨s, sp⟩ pos cs) (memInsert G' ⟨s, sp'⟩ pos cs) := by
  unfold memInsert
  refine Lock.same _ _ fun l hl => ?_
  unfold bufInsert at hl
  split at hl
  · rename_i hp
    unfold St.len at hp
    dsimp only at hp
    cases hl
    refine ⟨hp, rfl, ⟨?_, fun u hu => ?_⟩, rfl⟩
    · show Backed (sliceInsert s.buf pos.toNat cs).length _ _ _
      rw [sliceInsert_eq _ _ _ (by omega)]
      have := h.backed.append (s := s) rfl G G' cs.length
      have e : (s.buf.take pos.toNat ++ cs ++ s.buf.drop pos.toNat).length = s.buf.length + cs.length := by
        simp only [List.length_append, List.length_take, List.length_drop]
        omega
      rw [e]
      exact this
    · have := h.undoes u hu
      omega
  · cases hl

theorem delete_lock {H : Nat} {s : St} {sp sp' : List (Option Cell)} (h : Pinned H s sp sp') (pos : Int) (n : Nat) :
    Lock X (fun a b => (0 ≤ pos ∧ pos + n ≤ s.buf.length ∧ a.st.buf.length + n = s.buf.length) ∧ PinnedAt H s.cursor a b)
      (memDelete ⟨s, sp⟩ pos n) (memDelete ⟨s, sp'⟩ pos n) := by
  unfold memDelete
  refine Lock.same _ _ fun l hl => ?_
  unfold bufDelete at hl
  split at hl
  · rename_i hp
    unfold St.len at hp
    dsimp only at hp
    cases hl
    have e : (sliceDelete s.buf pos.toNat n).length + n = s.buf.length := by
      rw [sliceDelete_eq _ _ _ (by omega)]
      simp only [List.length_append, List.length_take, List.length_drop]
      omega
    refine ⟨⟨hp.1, hp.2, e⟩, rfl, ⟨?_, h.undoes⟩, rfl⟩
    refine h.backed.drop _ ?_
    show (sliceDelete s.buf pos.toNat n).length + _ = _
    have : (goCopyWithin s.buf pos.toNat (pos.toNat + n)).length = s.buf.length := by
      unfold goCopyWithin
      simp only [List.length_append, List.length_take, List.length_drop]
      omega
    rw [List.length_drop, this]
    dsimp only
    omega
  · cases hl

theorem cut_held {H : Nat} {s : St} {sp sp' : List (Option Cell)} (h : Pinned H s sp sp') {n : Nat} (hn : n ≤ s.buf.length) :
    Pinned H (memCut ⟨s, sp⟩ n).st (memCut ⟨s, sp⟩ n).spare (memCut ⟨s, sp'⟩ n).spare :=
  ⟨h.backed.drop _ (by
    show (s.buf.take n).length + _ = _
    rw [List.length_take, List.length_drop]; dsimp only; omega), h.undoes⟩

theorem insertString_lock {E : Env} {G G' : Grow} {H : Nat} {s : St} {sp sp' : List (Option Cell)} (h : Pinned H s sp sp')
    (pos : Int) (t : Bytes) :
    Lock X (fun a b => a.2 = b.2 ∧ (0 ≤ pos ∧ pos ≤ s.buf.length) ∧
        PinnedAt (max H (s.buf.length + a.2.length)) s.cursor a.1 b.1)
      (memInsertString E G ⟨s, sp⟩ pos t) (memInsertString E G' ⟨s, sp'⟩ pos t) := by
  unfold memInsertString
  refine (insert_lock h pos _).bind fun a b _ hr => ?_
  obtain ⟨s1, p1⟩ := a
  obtain ⟨s2, p2⟩ := b
  obtain ⟨hp, h1, h2, h3⟩ := hr
  cases h1
  refine ⟨rfl, hp, rfl, ⟨h2.backed, ?_⟩, h3⟩
  intro u hu
  rcases List.mem_cons.mp hu with rfl | hu
  · dsimp only; omega
  · exact h2.undoes u hu

theorem deleteCells_lock {E : Env} {H : Nat} {s : St} {sp sp' : List (Option Cell)} (h : Pinned H s sp sp') (pos n : Int) :
    Lock X (fun a b => a.2 = b.2 ∧ PinnedAt H s.cursor a.1 b.1 ∧ (n ≤ 0 ∨ pos + n > s.buf.length → a.1.st = s) ∧
        ((0 < n ∧ pos + n ≤ s.buf.length) → 0 ≤ pos ∧ a.1.st.buf.length + n = s.buf.length))
      (memDeleteCells E ⟨s, sp⟩ pos n) (memDeleteCells E ⟨s, sp'⟩ pos n) := by
  unfold memDeleteCells
  dsimp only
  unfold St.len
  by_cases hc : n ≤ 0 ∨ (s.buf.length : Int) < pos + n
  · simp only [if_pos hc]
    exact ⟨rfl, ⟨rfl, h, rfl⟩, fun _ => rfl, fun h => by omega⟩
  · simp only [if_neg hc]
    have hle := h.le
    refine (sub_lock h (by omega)).eq fun t ht => ?_
    have hr := sub_range ht
    have h1 : Pinned H { s with undoes := { pos := pos, del := 0, text := t } :: s.undoes } sp sp' :=
      ⟨h.backed, fun u hu => by
        rcases List.mem_cons.mp hu with rfl | hu
        · dsimp only; omega
        · exact h.undoes u hu⟩
    refine (width_lock h1 (by omega)).eq fun w _ => ?_
    refine (delete_lock h1 pos n.toNat).bind fun a b _ hr2 => ?_
    obtain ⟨⟨_, _, e⟩, h2⟩ := hr2
    dsimp only at e
    exact ⟨rfl, h2, fun h => by omega, fun _ => ⟨hr.1, by dsimp only; omega⟩⟩

/-! ## Commands -/

/-- The two arrays behind the line agree on what the editor may look at. -/
def Laid (s : St) (sp sp' : List (Option Cell)) : Prop := ∃ H : Nat, Pinned H s sp sp' ∧ s.cursor ≤ H

/-- What holds after a command. -/
def TwoMem (a b : Mem × β) : Prop := b.1.st = a.1.st ∧ Laid a.1.st a.1.spare b.1.spare ∧ b.2 = a.2

theorem both {H : Nat} {s : St} {sp sp' : List (Option Cell)} {r : β} (h : Pinned H s sp sp') (hc : s.cursor ≤ H) :
    Lock X TwoMem (Pure.pure (⟨s, sp⟩, r) : HM (Mem × β)) (Pure.pure (⟨s, sp'⟩, r)) := ⟨rfl, ⟨H, h, hc⟩, rfl⟩

/-- Painting is the end of most commands. -/
theorem painted {E : Env} {H : Nat} {s : St} {sp sp' : List (Option Cell)} {r : β} (h : Pinned H s sp sp') (hc : s.cursor ≤ H) :
    Lock X TwoMem (do let m ← memRepaint E ⟨s, sp⟩; return (m, r)) (do let m ← memRepaint E ⟨s, sp'⟩; return (m, r)) :=
  (repaint_lock h hc).held fun _ _ _ h1 hc1 => both h1 (by rw [hc1]; exact hc)

/-- Two runs of one command. -/
def Paired (X : Prop) (f g : Mem → HM (Mem × Result)) : Prop :=
  ∀ s sp sp', Laid s sp sp' → Lock X TwoMem (f ⟨s, sp⟩) (g ⟨s, sp'⟩)

theorem joinUndo_held {H : Nat} {s : St} {sp sp' : List (Option Cell)} (h : Pinned H s sp sp') :
    Pinned H (joinUndo s) sp sp' ∧ (joinUndo s).cursor = s.cursor := by
  unfold joinUndo
  split
  · rename_i u2 u1 rest hu
    split
    · exact ⟨h, rfl⟩
    · split
      · exact ⟨h, rfl⟩
      · split
        · exact ⟨h, rfl⟩
        · refine ⟨⟨h.backed, fun u hm => ?_⟩, rfl⟩
          rcases List.mem_cons.mp hm with rfl | hm
          · exact h.undoes u1 (by rw [hu]; simp)
          · exact h.undoes u (by rw [hu]; simp [hm])
  · exact ⟨h, rfl⟩

theorem replaceAndRepaint_lock {E : Env} {G G' : Grow} {s : St} {sp sp' : List (Option Cell)} (h : Laid s sp sp')
    (pos : Int) (t : Bytes) :
    Lock X (fun a b => ∃ H : Nat, PinnedAt H a.st.cursor a b ∧ a.st.cursor ≤ H) (memReplaceAndRepaint E G ⟨s, sp⟩ pos t)
      (memReplaceAndRepaint E G' ⟨s, sp'⟩ pos t) := by
  obtain ⟨H, h, hc⟩ := h
  unfold memReplaceAndRepaint
  refine (deleteCells_lock h pos _).bind fun a b _ hr => ?_
  obtain ⟨⟨s1, p1⟩, w1⟩ := a
  obtain ⟨⟨s2, p2⟩, w2⟩ := b
  obtain ⟨e1, ⟨e2, h1, _⟩, _⟩ := hr
  cases e1; cases e2
  dsimp only at h1 ⊢
  refine (insertString_lock h1 pos t).bind fun a b _ hr => ?_
  obtain ⟨⟨s3, p3⟩, ins⟩ := a
  obtain ⟨⟨s4, p4⟩, ins'⟩ := b
  obtain ⟨e1, hp, e2, h2, _⟩ := hr
  cases e1; cases e2
  dsimp only at h2 hp ⊢
  obtain ⟨h3, e3⟩ := joinUndo_held (s := { s3 with cursor := pos + ins.length }) h2.congr
  have h4 : Pinned _ (resetViewStart E (joinUndo { s3 with cursor := pos + ins.length })) p3 p4 := h3.congr
  have hc4 : (resetViewStart E (joinUndo { s3 with cursor := pos + ins.length })).cursor ≤
      ((max H (s1.buf.length + ins.length) : Nat) : Int) := by
    show (joinUndo _).cursor ≤ _
    rw [e3]
    dsimp only
    omega
  refine (repaint_lock h4 hc4).mono fun a b hr => ?_
  obtain ⟨e4, h5, hc5⟩ := hr
  exact ⟨_, ⟨e4, h5, rfl⟩, by rw [hc5]; exact hc4⟩

theorem Lock.laid {S : γ → δ → Prop} {x y : HM Mem} {f : Mem → HM γ} {g : Mem → HM δ}
    (h : Lock X (fun a b => ∃ H : Nat, PinnedAt H a.st.cursor a b ∧ a.st.cursor ≤ H) x y)
    (k : ∀ s sp sp', Laid s sp sp' → Lock X S (f ⟨s, sp⟩) (g ⟨s, sp'⟩)) : Lock X S (x >>= f) (y >>= g) := by
  refine h.bind fun a b _ hr => ?_
  obtain ⟨s, sp⟩ := a
  obtain ⟨s', sp'⟩ := b
  obtain ⟨H, ⟨h1, h2, _⟩, h3⟩ := hr
  cases h1
  exact k _ _ _ ⟨H, h2, h3⟩

theorem Laid.done {s : St} {sp sp' : List (Option Cell)} {r : β} (h : Laid s sp sp') :
    Lock X TwoMem (Pure.pure (⟨s, sp⟩, r) : HM (Mem × β)) (Pure.pure (⟨s, sp'⟩, r)) := ⟨rfl, h, rfl⟩

theorem callPrompt_same (E : Env) (s : St) : (callPromptWriter E s).2.buf = s.buf ∧
    (callPromptWriter E s).2.cursor = s.cursor ∧ (callPromptWriter E s).2.undoes = s.undoes := by
  unfold callPromptWriter
  cases E.prompt <;> exact ⟨rfl, rfl, rfl⟩

theorem repaintAll_lock {E : Env} {H : Nat} {s : St} {sp sp' : List (Option Cell)} (h : Pinned H s sp sp')
    (hc : s.cursor ≤ H) : Lock X (PinnedAt H s.cursor) (memRepaintAll E ⟨s, sp⟩) (memRepaintAll E ⟨s, sp'⟩) := by
  unfold memRepaintAll
  obtain ⟨e1, e2, e3⟩ := callPrompt_same E (s.emit .flush)
  rcases hp : callPromptWriter E (s.emit .flush) with ⟨w, t⟩
  rw [hp] at e1 e2 e3
  dsimp only at e1 e2 e3 ⊢
  have h0 : Pinned H { t with topColumn := w } sp sp' := h.congr (by dsimp only; rw [e1]; rfl) (by dsimp only; rw [e3]; rfl)
  refine (repaint_lock (E := E) h0 (by dsimp only; rw [e2]; exact hc)).mono fun a b hr => ?_
  exact ⟨hr.1, hr.2.1, hr.2.2.trans e2⟩

theorem repaintLastLine_lock {E : Env} {H : Nat} {s : St} {sp sp' : List (Option Cell)} (h : Pinned H s sp sp')
    (hc : s.cursor ≤ H) : Lock X (PinnedAt H s.cursor) (memRepaintLastLine E ⟨s, sp⟩) (memRepaintLastLine E ⟨s, sp'⟩) := by
  unfold memRepaintLastLine
  cases E.prompt with
  | none => exact repaint_lock (s := ((s.emit .flush).emit (.lit [0x0D, 0x3E, 0x20]))) h.congr hc
  | some p => exact repaint_lock (s := St.emit { (s.emit .flush) with promptN := (s.emit .flush).promptN + 1 } _) h.congr hc

/-! ### gommand.go -/

theorem interrupt_twin : Paired X memInterrupt memInterrupt := by
  intro s sp sp' ⟨H, h, _⟩
  have h1 := cut_held h (Nat.zero_le _)
  exact ⟨rfl, ⟨H, ⟨h1.backed, fun u hu => by cases hu⟩, Int.natCast_nonneg _⟩, rfl⟩

theorem beginningOfLine_twin (E : Env) : Paired X (memBeginningOfLine E) (memBeginningOfLine E) := by
  intro s sp sp' ⟨H, h, _⟩
  exact painted (s := { s with cursor := 0, viewStart := 0 }) h.congr (Int.natCast_nonneg _)

theorem backwardChar_twin (E : Env) : Paired X (memBackwardChar E) (memBackwardChar E) := by
  intro s sp sp' ⟨H, h, hc⟩
  unfold memBackwardChar
  dsimp only
  by_cases h0 : s.cursor ≤ 0
  · simp only [if_pos h0]
    exact both h hc
  · simp only [if_neg h0]
    exact painted h.congr (by dsimp only; omega)

theorem endOfLine_twin (E : Env) : Paired X (memEndOfLine E) (memEndOfLine E) := by
  intro s sp sp' ⟨H, h, hc⟩
  have hle := h.le
  unfold memEndOfLine
  refine (width_lock h (by dsimp only; unfold St.len; omega)).eq fun w _ => ?_
  dsimp only
  by_cases hw : w < s.viewWidth
  · simp only [if_pos hw]
    refine (puts_lock h (by unfold St.len; omega)).held fun t p q h1 _ => ?_
    have := h1.le
    exact both (H := H) h1.congr (by show t.len ≤ (H : Int); unfold St.len; omega)
  · simp only [if_neg hw]
    refine Lock.same _ _ fun a _ => ?_
    refine (puts_lock (H := H) (h.congr) (by show s.len ≤ (H : Int); unfold St.len; omega)).held fun t p q h1 _ => ?_
    have := h1.le
    exact both (H := H) h1.congr (by show t.len ≤ (H : Int); unfold St.len; omega)

theorem forwardChar_twin (E : Env) (G G' : Grow) : Paired X (memForwardChar E G) (memForwardChar E G') := by
  intro s sp sp' hl
  obtain ⟨H, h, hc⟩ := id hl
  have hle := h.le
  unfold memForwardChar
  dsimp only
  by_cases h0 : s.cursor ≥ s.len
  · simp only [if_pos h0]
    by_cases h1 : s.suffixList.length > 0
    · simp only [if_pos h1]
      exact (replaceAndRepaint_lock hl _ _).laid fun _ _ _ h2 => h2.done
    · simp only [if_neg h1]
      exact hl.done
  · simp only [if_neg h0]
    unfold St.len at h0
    refine (width_lock h (by omega)).eq fun w _ => ?_
    by_cases hw : w < s.viewWidth
    · simp only [if_pos hw]
      refine (puts_lock h (by omega)).held fun t p q h1 hc1 => ?_
      exact both (H := H) h1.congr (by dsimp only; omega)
    · simp only [if_neg hw]
      refine Lock.same _ _ fun a _ => ?_
      refine Lock.same _ _ fun b _ => ?_
      refine (puts_lock (H := H) h.congr (by show s.cursor + 1 ≤ _; omega)).held fun t p q h1 hc1 => ?_
      have hc2 : t.cursor = s.cursor := hc1
      exact both (H := H) h1.congr (by show t.cursor + 1 ≤ _; omega)

theorem backwardDeleteChar_twin (E : Env) : Paired X (memBackwardDeleteChar E) (memBackwardDeleteChar E) := by
  intro s sp sp' ⟨H, h, hc⟩
  unfold memBackwardDeleteChar
  dsimp only
  by_cases h0 : s.cursor > 0
  · simp only [if_pos h0]
    refine (deleteCells_lock (s := { s with cursor := s.cursor - 1 }) (H := H) h.congr _ _).bind fun a b _ hr => ?_
    obtain ⟨⟨s1, p1⟩, w1⟩ := a
    obtain ⟨⟨s2, p2⟩, w2⟩ := b
    obtain ⟨e1, ⟨e2, h1, hc1⟩, _⟩ := hr
    cases e1; cases e2
    dsimp only at h1 hc1 ⊢
    by_cases hv : s1.cursor < s1.viewStart
    · simp only [if_pos hv]
      exact painted h1.congr (by dsimp only; omega)
    · simp only [if_neg hv]
      exact painted h1 (by omega)
  · simp only [if_neg h0]
    exact both h hc

theorem deleteChar_twin (E : Env) : Paired X (memDeleteChar E) (memDeleteChar E) := by
  intro s sp sp' ⟨H, h, hc⟩
  unfold memDeleteChar
  refine (deleteCells_lock h _ _).bind fun a b _ hr => ?_
  obtain ⟨⟨s1, p1⟩, w1⟩ := a
  obtain ⟨⟨s2, p2⟩, w2⟩ := b
  obtain ⟨e1, ⟨e2, h1, hc1⟩, _⟩ := hr
  cases e1; cases e2
  dsimp only at h1 hc1 ⊢
  exact painted h1 (by omega)

theorem deleteOrAbort_twin (E : Env) : Paired X (memDeleteOrAbort E) (memDeleteOrAbort E) := by
  intro s sp sp' h
  unfold memDeleteOrAbort
  dsimp only
  by_cases h0 : s.len > 0
  · simp only [if_pos h0]
    exact deleteChar_twin E s sp sp' h
  · simp only [if_neg h0]
    exact h.done

theorem selfInsertTail_twin (E : Env) (G G' : Grow) (k : Bytes) :
    Paired X (memSelfInsertTail E G · k) (memSelfInsertTail E G' · k) := by
  intro s sp sp' ⟨H, h, hc⟩
  unfold memSelfInsertTail
  refine (insertString_lock h s.cursor k).bind fun a b _ hr => ?_
  obtain ⟨⟨s1, p1⟩, l1⟩ := a
  obtain ⟨⟨s2, p2⟩, l2⟩ := b
  obtain ⟨e1, hp, e2, h1, hc1⟩ := hr
  cases e1; cases e2
  dsimp only at h1 hc1 hp ⊢
  refine (width_lock h1 (by omega)).eq fun w _ => ?_
  split
  · exact painted (H := max H (s.buf.length + l1.length)) h1.congr (by
      show s1.cursor + l1.length ≤ _
      omega)
  · exact painted (H := max H (s.buf.length + l1.length)) h1.congr (by dsimp only; omega)

theorem selfInsert_twin (E : Env) (G G' : Grow) (k : Bytes) : Paired X (memSelfInsert E G k) (memSelfInsert E G' k) := by
  intro s sp sp' hl
  obtain ⟨H, h, hc⟩ := id hl
  unfold memSelfInsert
  dsimp only
  split
  · refine Lock.same _ _ fun c _ => ?_
    exact backwardDeleteChar_twin E _ sp sp' ⟨H, h.congr, hc⟩
  · split
    · refine Lock.same _ _ fun c _ => ?_
      refine (backwardDeleteChar_twin E s sp sp' hl).bind fun a b _ hr => ?_
      obtain ⟨⟨s1, p1⟩, r1⟩ := a
      obtain ⟨⟨s2, p2⟩, r2⟩ := b
      obtain ⟨e1, h1, e2⟩ := hr
      cases e1; cases e2
      exact selfInsertTail_twin E G G' _ s1 p1 p2 h1
    · split
      · exact selfInsertTail_twin E G G' _ _ sp sp' ⟨H, h.congr, hc⟩
      · exact selfInsertTail_twin E G G' _ _ sp sp' hl

theorem killLine_twin (E : Env) : Paired X (memKillLine E) (memKillLine E) := by
  intro s sp sp' ⟨H, h, hc⟩
  have hle := h.le
  unfold memKillLine
  refine (sub_lock h (by dsimp only; unfold St.len; omega)).eq fun t ht => ?_
  have hr := sub_range ht
  refine (sub_lock (s := eraseline { s with clip := E.clipSet s.clip t }) (H := H) h.congr
    (by show s.len ≤ _; unfold St.len; omega)).eq fun t2 _ => ?_
  unfold St.len at hr
  dsimp only at hr
  let s2 : St := { eraseline { s with clip := E.clipSet s.clip t } with
    undoes := { pos := s.cursor, del := 0, text := t2 } :: s.undoes }
  have h2 : Pinned H s2 sp sp' := ⟨h.backed, fun u hu => by
    rcases List.mem_cons.mp hu with rfl | hu
    · exact hc
    · exact h.undoes u hu⟩
  have h3 := cut_held h2 (n := s.cursor.toNat) (by show s.cursor.toNat ≤ s.buf.length; omega)
  exact ⟨rfl, ⟨H, h3, hc⟩, rfl⟩

theorem killWhole_held {H : Nat} {s : St} {sp sp' : List (Option Cell)} (h : Pinned H s sp sp') :
    Lock X (fun a b => PinnedAt H 0 a.1 b.1 ∧ a.2 = b.2) (memKillWholeLine ⟨s, sp⟩) (memKillWholeLine ⟨s, sp'⟩) := by
  let s2 : St := eraseline (gotoHead { s with undoes := { pos := 0, del := 0, text := s.text } :: s.undoes })
  have h2 : Pinned H s2 sp sp' := ⟨h.backed, fun u hu => by
    rcases List.mem_cons.mp hu with rfl | hu
    · exact Int.natCast_nonneg _
    · exact h.undoes u hu⟩
  have h3 := cut_held h2 (Nat.zero_le _)
  exact ⟨⟨rfl, ⟨h3.backed, h3.undoes⟩, rfl⟩, rfl⟩

theorem killWholeLine_twin : Paired X memKillWholeLine memKillWholeLine := by
  intro s sp sp' ⟨H, h, hc⟩
  refine (killWhole_held h).mono fun a b hr => ?_
  obtain ⟨⟨e1, h1, hc1⟩, e2⟩ := hr
  exact ⟨e1, ⟨H, h1, by rw [hc1]; exact Int.natCast_nonneg _⟩, e2.symm⟩

theorem checkCursor_lock (s : St) (sp sp' : List (Option Cell)) :
    Lock X (fun _ _ => 0 ≤ s.cursor ∧ s.cursor ≤ s.buf.length) (memCheckCursor ⟨s, sp⟩) (memCheckCursor ⟨s, sp'⟩) := by
  unfold memCheckCursor
  dsimp only
  unfold St.len
  by_cases h : 0 ≤ s.cursor ∧ s.cursor ≤ (s.buf.length : Int)
  · simp only [if_pos h]; exact h
  · simp only [if_neg h]; exact ⟨rfl, Or.inr ⟨rfl, _, rfl⟩⟩

theorem unixWordRubout_twin (E : Env) : Paired X (memUnixWordRubout E) (memUnixWordRubout E) := by
  intro s sp sp' ⟨H, h, hc⟩
  have hle := h.le
  unfold memUnixWordRubout
  refine (checkCursor_lock s sp sp').bind fun _ _ _ hr => ?_
  have hk : (skipSpacesLeft s.buf s.cursor.toNat : Int) ≤ H := by
    have := skipSpacesLeft_le s.buf s.cursor.toNat
    omega
  refine (wordTop_lock (H := H) h.congr hk).eq fun new _ => ?_
  refine (sub_lock (H := H) h.congr hc).eq fun t ht => ?_
  have hr2 := sub_range ht
  dsimp only at hr2 ⊢
  refine (deleteCells_lock (H := H) h.congr _ _).bind fun a b _ hr => ?_
  obtain ⟨⟨s1, p1⟩, w1⟩ := a
  obtain ⟨⟨s2, p2⟩, w2⟩ := b
  obtain ⟨e1, ⟨e2, h1, hc1⟩, _⟩ := hr
  cases e1; cases e2
  dsimp only at h1 hc1 ⊢
  split
  · exact painted (H := H) h1.congr (by show new ≤ _; omega)
  · exact painted (H := H) h1.congr (by show new ≤ _; omega)

theorem unixLineDiscard_twin (E : Env) : Paired X (memUnixLineDiscard E) (memUnixLineDiscard E) := by
  intro s sp sp' ⟨H, h, hc⟩
  unfold memUnixLineDiscard
  refine (sub_lock h hc).eq fun t ht => ?_
  refine (deleteCells_lock (H := H) h.congr _ _).bind fun a b _ hr => ?_
  obtain ⟨⟨s1, p1⟩, w1⟩ := a
  obtain ⟨⟨s2, p2⟩, w2⟩ := b
  obtain ⟨e1, ⟨e2, h1, hc1⟩, _⟩ := hr
  cases e1; cases e2
  exact painted (H := H) h1.congr (Int.natCast_nonneg _)

theorem clearScreen_twin (E : Env) : Paired X (memClearScreen E) (memClearScreen E) := by
  intro s sp sp' ⟨H, h, hc⟩
  unfold memClearScreen
  refine (repaintAll_lock (H := H) (s := s.emit _) h.congr hc).held fun t p q h1 hc1 => ?_
  exact both h1 (by rw [hc1]; exact hc)

theorem repaintOnNewline_twin (E : Env) : Paired X (memRepaintOnNewline E) (memRepaintOnNewline E) := by
  intro s sp sp' ⟨H, h, hc⟩
  unfold memRepaintOnNewline
  refine (repaintAll_lock (H := H) (s := s.emit _) h.congr hc).held fun t p q h1 hc1 => ?_
  exact both h1 (by rw [hc1]; exact hc)

theorem quotedInsert_twin (E : Env) (G G' : Grow) : Paired X (memQuotedInsert E G) (memQuotedInsert E G') := by
  intro s sp sp' ⟨H, h, hc⟩
  unfold memQuotedInsert
  dsimp only
  rcases hk : getKey (s.emit .cursorOn) with ⟨k, s1⟩
  obtain ⟨rest, e⟩ := getKey_state hk
  have h1 : Pinned H s1 sp sp' := h.congr (by rw [e]; rfl) (by rw [e]; rfl)
  have hc1 : s1.cursor ≤ H := by rw [e]; exact hc
  cases k with
  | none => exact both (H := H) h1.congr hc1
  | some key =>
    refine (selfInsert_twin E G G' key s1 sp sp' ⟨H, h1, hc1⟩).bind fun a b _ hr => ?_
    obtain ⟨⟨s1, p1⟩, r1⟩ := a
    obtain ⟨⟨s2, p2⟩, r2⟩ := b
    obtain ⟨e1, ⟨H', h1, hc1⟩, e2⟩ := hr
    cases e1; cases e2
    exact both (H := H') h1.congr hc1

theorem yank_twin (E : Env) (G G' : Grow) : Paired X (memYank E G) (memYank E G') := by
  intro s sp sp' h
  unfold memYank
  dsimp only
  cases s.clip with
  | none => exact h.done
  | some t => exact (replaceAndRepaint_lock h _ _).laid fun _ _ _ h2 => h2.done

theorem yankWithQuote_twin (E : Env) (G G' : Grow) : Paired X (memYankWithQuote E G) (memYankWithQuote E G') := by
  intro s sp sp' h
  unfold memYankWithQuote
  dsimp only
  cases s.clip with
  | none => exact h.done
  | some t => exact (replaceAndRepaint_lock h _ _).laid fun _ _ _ h2 => h2.done

theorem live_error {m : Mem} {cs : List (Option Cell)} {e : Fault × Mem} (h : liveCells m cs = .error e) : e.2 = m := by
  induction cs with
  | nil => cases h
  | cons c cs ih =>
    cases c with
    | none => cases h; rfl
    | some c =>
      unfold liveCells at h
      cases hl : liveCells m cs with
      | error e' => rw [hl] at h; cases h; exact ih hl
      | ok r => rw [hl] at h; cases h

theorem slice_error {m : Mem} {lo hi : Int} {e : Fault × Mem} (h : memSlice m lo hi = .error e) : e.2 = m := by
  unfold memSlice at h
  split at h <;> cases h
  rfl

theorem sub_error {m : Mem} {lo hi : Int} {e : Fault × Mem} (h : memSub m lo hi = .error e) : e.2 = m := by
  unfold memSub at h
  cases hs : memSlice m lo hi with
  | error e' => rw [hs] at h; cases h; exact slice_error hs
  | ok cs =>
    rw [hs] at h
    cases hl : liveCells m cs with
    | error e' =>
      have h2 : (liveCells m cs >>= fun cs => pure (cell2string cs)) = .error e := h
      rw [hl] at h2; cases h2; exact live_error hl
    | ok r =>
      have h2 : (liveCells m cs >>= fun cs => pure (cell2string cs)) = .error e := h
      rw [hl] at h2; cases h2

theorem width_error {E : Env} {m : Mem} {lo hi : Int} {e : Fault × Mem} (h : memWidth E m lo hi = .error e) : e.2 = m := by
  unfold memWidth at h
  cases hs : memSlice m lo hi with
  | error e' => rw [hs] at h; cases h; exact slice_error hs
  | ok cs =>
    rw [hs] at h
    have h2 : (liveCells m cs >>= fun cs => pure (cellsWidth E.cfg cs)) = .error e := h
    cases hl : liveCells m cs with
    | error e' => rw [hl] at h2; cases h2; exact live_error hl
    | ok r => rw [hl] at h2; cases h2

/-- A slice that ends one behind the cursor, when the cursor is behind the line: `Buffer[Cursor]`
(gommand.go:385) stops the run if the slice does not. -/
theorem swap_error (E : Env) {m : Mem} (h1 : ¬ m.st.len = m.st.cursor) (h2 : ¬ m.st.cursor < m.st.len)
    (h3 : ¬ m.st.cursor < 1) : ∃ e, memSwapChar E m = .error e ∧ e.2.st.out = m.st.out := by
  unfold memSwapChar
  simp only [if_neg h1, if_neg h3]
  cases hs : memSub m (m.st.cursor - 1) (m.st.cursor + 1) with
  | error e => exact ⟨e, rfl, by rw [sub_error hs]⟩
  | ok two =>
    show ∃ e, (memWidth E _ _ _ >>= _) = .error e ∧ _
    cases hw : memWidth E { m with st := { m.st with
      undoes := { pos := m.st.cursor - 1, del := 2, text := two } :: m.st.undoes } } m.st.viewStart (m.st.cursor + 1) with
    | error e => exact ⟨e, rfl, by rw [width_error hw]⟩
    | ok w =>
      show ∃ e, (Mem.run _ _ >>= _) = .error e ∧ _
      have : ∃ e, index ({ m.st with undoes := { pos := m.st.cursor - 1, del := 2, text := two } :: m.st.undoes } : St)
          m.st.buf m.st.cursor = .error e ∧ e.st.out = m.st.out := by
        unfold index
        unfold St.len at h2
        rw [if_neg (by omega)]
        have : m.st.buf[m.st.cursor.toNat]? = none := List.getElem?_eq_none (by omega)
        rw [this]
        exact ⟨_, rfl, rfl⟩
      obtain ⟨e, he, ho⟩ := this
      rw [he]
      exact ⟨_, rfl, ho⟩

theorem swapChar_twin (E : Env) (hX : X) : Paired X (memSwapChar E) (memSwapChar E) := by
  intro s sp sp' ⟨H, h, hc⟩
  have hle := h.le
  by_cases h0 : s.len = s.cursor
  · unfold memSwapChar
    dsimp only
    simp only [if_pos h0]
    by_cases h1 : s.cursor < 2
    · simp only [if_pos h1]
      exact both h hc
    · simp only [if_neg h1]
      refine (sub_lock h hc).eq fun two _ => ?_
      let us : List Undo := { pos := s.cursor, del := 2, text := two } :: s.undoes
      have h2 : Pinned H (gotoHead { s with buf := swapAt s.buf (s.cursor - 2).toNat, undoes := us }) sp sp' := by
        refine ⟨?_, fun u hu => ?_⟩
        · show Backed (swapAt s.buf (s.cursor - 2).toNat).length _ _ _
          rw [swapAt_length]
          exact h.backed
        · rcases List.mem_cons.mp hu with rfl | hu
          · exact hc
          · exact h.undoes u hu
      exact (puts_lock h2 hc).held fun t p q h3 hc3 => both h3 (by rw [hc3]; exact hc)
  · by_cases h1 : s.cursor < 1
    · unfold memSwapChar
      dsimp only
      simp only [if_neg h0, if_pos h1]
      exact both h hc
    · by_cases h2 : s.cursor < s.len
      · unfold memSwapChar
        dsimp only
        simp only [if_neg h0, if_neg h1]
        unfold St.len at h2
        refine (sub_lock h (by omega)).eq fun two _ => ?_
        have h3 : Pinned H { s with undoes := { pos := s.cursor - 1, del := 2, text := two } :: s.undoes } sp sp' := by
          refine ⟨h.backed, fun u hu => ?_⟩
          rcases List.mem_cons.mp hu with rfl | hu
          · dsimp only; omega
          · exact h.undoes u hu
        refine (width_lock h3 (by omega)).eq fun w _ => ?_
        refine Lock.same _ _ fun a _ => ?_
        let us : List Undo := { pos := s.cursor - 1, del := 2, text := two } :: s.undoes
        have h4 : Pinned H (gotoHead { s with buf := swapAt s.buf (s.cursor - 1).toNat, undoes := us }) sp sp' :=
          h3.congr (swapAt_length _ _)
        split
        · refine (puts_lock (H := H) h4.congr (by show s.cursor + 1 ≤ _; omega)).held fun t p q h5 hc5 => ?_
          exact both h5 (by rw [hc5]; show s.cursor + 1 ≤ _; omega)
        · refine (puts_lock (H := H) h4.congr (by show s.cursor + 1 ≤ _; omega)).held fun t p q h5 hc5 => ?_
          exact both h5 (by rw [hc5]; show s.cursor + 1 ≤ _; omega)
      · obtain ⟨e, he, ho⟩ := swap_error E (m := ⟨s, sp⟩) h0 h2 h1
        obtain ⟨e', he', ho'⟩ := swap_error E (m := ⟨s, sp'⟩) h0 h2 h1
        rw [he, he']
        exact ⟨ho.trans ho'.symm, Or.inl hX⟩

theorem backwardWord_twin (E : Env) : Paired X (memBackwardWord E) (memBackwardWord E) := by
  intro s sp sp' ⟨H, h, hc⟩
  have hle := h.le
  unfold memBackwardWord
  refine (checkCursor_lock s sp sp').bind fun _ _ _ hr => ?_
  have hk : (skipWordLeft s.buf (skipSpacesLeft s.buf s.cursor.toNat) : Int) ≤ H := by
    have := skipSpacesLeft_le s.buf s.cursor.toNat
    have := skipWordLeft_le s.buf (skipSpacesLeft s.buf s.cursor.toNat)
    omega
  dsimp only
  split
  · exact painted (H := H) h.congr hk
  · exact painted (H := H) h.congr hk

theorem forwardWordPos_le (buf : List Cell) (n : Nat) : forwardWordPos buf n ≤ max n buf.length := by
  unfold forwardWordPos
  dsimp only
  have h1 := skipRight_bounds (fun c => !c.moji.isSpace) (buf.drop n) n
  generalize skipRight (fun c => !c.moji.isSpace) (buf.drop n) n = p at *
  have h2 := skipRight_bounds (fun c => c.moji.isSpace) (buf.drop p) p
  simp only [List.length_drop] at *
  omega

theorem forwardWord_twin (E : Env) : Paired X (memForwardWord E) (memForwardWord E) := by
  intro s sp sp' ⟨H, h, hc⟩
  have hle := h.le
  unfold memForwardWord
  dsimp only
  by_cases h0 : s.cursor < 0
  · simp only [if_pos h0]
    exact ⟨rfl, Or.inr ⟨rfl, _, rfl⟩⟩
  · simp only [if_neg h0]
    have hp : (forwardWordPos s.buf s.cursor.toNat : Int) ≤ H := by
      have := forwardWordPos_le s.buf s.cursor.toNat
      omega
    refine (width_lock h hp).eq fun w _ => ?_
    by_cases hw : w < s.viewWidth
    · simp only [if_pos hw]
      refine (puts_lock h hp).held fun t p q h1 hc1 => ?_
      exact both (H := H) h1.congr hp
    · simp only [if_neg hw]
      exact painted (H := H) h.congr hp

theorem undo_twin (E : Env) (G G' : Grow) : Paired X (memUndo E G) (memUndo E G') := by
  intro s sp sp' ⟨H, h, hc⟩
  unfold memUndo
  dsimp only
  rcases hu : s.undoes with _ | ⟨u, rest⟩
  · exact both (H := H) h.congr hc
  · have hu1 : u.pos ≤ (H : Int) := h.undoes u (by rw [hu]; exact List.mem_cons_self)
    have h0 : Pinned H (gotoHead { s with undoes := rest }) sp sp' :=
      ⟨h.backed, fun v hv => h.undoes v (by rw [hu]; exact List.mem_cons_of_mem _ hv)⟩
    refine Lock.held (H := H) (c := s.cursor) ?_ fun s1 p1 q1 h1 _ => ?_
    · split
      · exact (delete_lock h0 _ _).mono fun a b hr => hr.2
      · exact ⟨rfl, h0, rfl⟩
    · refine Lock.laid ?_ fun s2 p2 q2 hl => ?_
      · dsimp only
        split
        · refine (insert_lock h1 _ _).bind fun a b _ hr => ?_
          obtain ⟨s1, p1⟩ := a
          obtain ⟨s2, p2⟩ := b
          obtain ⟨hp, e2, h2, _⟩ := hr
          cases e2
          exact ⟨_, ⟨rfl, h2.congr, rfl⟩, by dsimp only; omega⟩
        · exact ⟨H, ⟨rfl, h1.congr, rfl⟩, hu1⟩
      · obtain ⟨H', h2, hc2⟩ := hl
        exact painted (H := H') h2.congr hc2

/-! ### history.go and isearch.go -/

theorem showHistory_twin (E : Env) (G G' : Grow) : Paired X (memShowHistory E G) (memShowHistory E G') := by
  intro s sp sp' ⟨H, h, _⟩
  unfold memShowHistory
  refine (killWhole_held h).bind fun a b _ hr => ?_
  obtain ⟨⟨s1, p1⟩, r1⟩ := a
  obtain ⟨⟨s2, p2⟩, r2⟩ := b
  obtain ⟨⟨e1, h1, hc1⟩, e2⟩ := hr
  cases e1; cases e2
  dsimp only at h1 hc1 ⊢
  refine Lock.same _ _ fun t _ => ?_
  by_cases ht : t ≠ []
  · simp only [if_pos ht]
    refine (insertString_lock h1 0 t).bind fun a b _ hr => ?_
    obtain ⟨⟨s1, p1⟩, l1⟩ := a
    obtain ⟨⟨s2, p2⟩, l2⟩ := b
    obtain ⟨e1, hp, e2, h2, _⟩ := hr
    cases e1; cases e2
    dsimp only at h2 ⊢
    refine (endOfLine_twin E _ _ _ ⟨_, h2.congr, ?_⟩).bind fun a b _ hr => ?_
    · dsimp only
      omega
    obtain ⟨⟨s1, p1⟩, r1⟩ := a
    obtain ⟨⟨s2, p2⟩, r2⟩ := b
    obtain ⟨e1, h3, e2⟩ := hr
    cases e1; cases e2
    exact Laid.done h3
  · simp only [if_neg ht]
    exact both h1 (by rw [hc1]; exact Int.natCast_nonneg _)

theorem previousHistory_twin (E : Env) (G G' : Grow) : Paired X (memPreviousHistory E G) (memPreviousHistory E G') := by
  intro s sp sp' hl
  obtain ⟨H, h, hc⟩ := id hl
  unfold memPreviousHistory
  dsimp only
  by_cases h0 : E.histLen ≤ 0
  · simp only [if_pos h0]
    exact hl.done
  · simp only [if_neg h0]
    by_cases h1 : s.histPtr ≤ 0 ∧ E.historyCycling = false
    · simp only [if_pos h1]
      exact hl.done
    · simp only [if_neg h1]
      by_cases h2 : s.histPtr ≤ 0
      · simp only [if_pos h2]
        refine Lock.same _ _ fun a ha => ?_
        obtain ⟨m, rfl⟩ := saveModified_state ha
        exact showHistory_twin E G G' _ sp sp' ⟨H, h.congr, hc⟩
      · simp only [if_neg h2]
        refine Lock.same _ _ fun a ha => ?_
        obtain ⟨m, rfl⟩ := saveModified_state ha
        exact showHistory_twin E G G' _ sp sp' ⟨H, h.congr, hc⟩

theorem nextHistory_twin (E : Env) (G G' : Grow) : Paired X (memNextHistory E G) (memNextHistory E G') := by
  intro s sp sp' hl
  obtain ⟨H, h, hc⟩ := id hl
  unfold memNextHistory
  dsimp only
  by_cases h0 : E.histLen ≤ 0
  · simp only [if_pos h0]
    exact hl.done
  · simp only [if_neg h0]
    by_cases h1 : s.histPtr + 1 > E.histLen
    · simp only [if_pos h1]
      exact hl.done
    · simp only [if_neg h1]
      refine Lock.same _ _ fun a ha => ?_
      obtain ⟨m, rfl⟩ := saveModified_state ha
      exact showHistory_twin E G G' _ sp sp' ⟨H, h.congr, hc⟩

theorem isearchLoop_twin (E : Env) (G G' : Grow) (n : Nat) (it : ISt) :
    Paired X (memIsearchLoop E G n it) (memIsearchLoop E G' n it) := by
  induction n generalizing it with
  | zero => intro s sp sp' _; exact ⟨rfl, Or.inr ⟨rfl, _, rfl⟩⟩
  | succ n ih =>
    intro s sp sp' ⟨H, h, hc⟩
    unfold memIsearchLoop
    refine Lock.same _ _ fun a ha => ?_
    obtain ⟨o, rfl⟩ := drawLoop_buf ha
    rcases hk : getKey ((eraseline { s with out := o }).emit .cursorOn) with ⟨k, s1⟩
    obtain ⟨rest, e⟩ := getKey_state hk
    have h1 : Pinned H s1 sp sp' := h.congr (by rw [e]; rfl) (by rw [e]; rfl)
    have hc1 : s1.cursor ≤ H := by rw [e]; exact hc
    cases k with
    | none => exact both h1 hc1
    | some key =>
      have h2 : Pinned H (gotoHead (s1.emit .cursorOff)) sp sp' := h1.congr
      have hle := h2.le
      have hl2 : Laid (gotoHead (s1.emit .cursorOff)) sp sp' := ⟨H, h2, hc1⟩
      have hc2 : (gotoHead (s1.emit .cursorOff)).cursor ≤ (H : Int) := hc1
      dsimp only
      generalize gotoHead (s1.emit .cursorOff) = s2 at *
      split
      · exact ih _ s2 sp sp' hl2
      · split
        · let s3 : St := { s2 with viewStart := 0, undoes := { pos := 0, del := 0, text := s2.text } :: s2.undoes }
          have h3 : Pinned H s3 sp sp' := ⟨h2.backed, fun u hu => by
            rcases List.mem_cons.mp hu with rfl | hu
            · exact Int.natCast_nonneg _
            · exact h2.undoes u hu⟩
          have h4 := cut_held h3 (Nat.zero_le _)
          have hl : Laid { (memCut ⟨s3, sp⟩ 0).st with cursor := 0 } (memCut ⟨s3, sp⟩ 0).spare (memCut ⟨s3, sp'⟩ 0).spare :=
            ⟨H, h4.congr, Int.natCast_nonneg _⟩
          exact (replaceAndRepaint_lock hl 0 it.found).laid fun _ _ _ h5 => h5.done
        · split
          · refine (getView2_lock h2 hc2).bind fun a b _ hr => ?_
            obtain ⟨rfl, hn⟩ := hr
            obtain ⟨n, w⟩ := a
            dsimp only at hn ⊢
            refine (puts_lock h2 (by omega)).held fun t p q h3 hc3 => ?_
            refine (puts_lock (H := H) h3.congr (by show t.cursor ≤ _; omega)).held fun t2 p q h4 hc4 => ?_
            have hc5 : t2.cursor = t.cursor := hc4
            exact both h4 (by omega)
          · split
            · refine Lock.same _ _ fun it2 _ => ?_
              exact ih _ s2 sp sp' hl2
            · split
              · refine Lock.same _ _ fun it2 _ => ?_
                exact ih _ s2 sp sp' hl2
              · split
                · exact ih _ s2 sp sp' hl2
                · exact ih _ s2 sp sp' hl2

theorem isearch_twin (E : Env) (G G' : Grow) : Paired X (memIsearch E G) (memIsearch E G') := by
  intro s sp sp' ⟨H, h, hc⟩
  exact isearchLoop_twin E G G' _ _ (gotoHead s) sp sp' ⟨H, h.congr, hc⟩

/-! ### completion/main.go -/

theorem complete_twin (U : Uni) (E : Env) (G G' : Grow) (K : Completer) (p : Bytes) (s : St) (sp sp' : List (Option Cell))
    (hl : Laid s sp sp') : Lock X TwoMem (memComplete U E G K p ⟨s, sp⟩) (memComplete U E G' K p ⟨s, sp'⟩) := by
  obtain ⟨H, h, hc⟩ := id hl
  unfold memComplete
  refine Lock.same _ _ fun a _ => ?_
  obtain ⟨fields, start⟩ := a
  dsimp only
  cases fields.getLast? with
  | none => exact hl.done
  | some field =>
    dsimp only
    refine Lock.same _ _ fun a _ => ?_
    obtain ⟨list, base⟩ := a
    dsimp only
    match list with
    | [] => exact hl.done
    | [str] =>
      dsimp only
      split
      · exact both (H := H) h.congr hc
      · exact (replaceAndRepaint_lock hl _ _).laid fun _ _ _ h5 => h5.done
    | x :: y :: zs =>
      dsimp only
      cases commonPrefix U (x :: y :: zs) with
      | none => exact ⟨rfl, Or.inr ⟨rfl, _, rfl⟩⟩
      | some pr =>
        dsimp only
        split
        · exact both (H := H) h.congr hc
        · exact (replaceAndRepaint_lock hl _ _).laid fun _ _ _ h5 => h5.done

theorem completion_twin (E : Env) (G G' : Grow) (P : Completing) : Paired X (memCompletion E G P) (memCompletion E G' P) := by
  intro s sp sp' hl
  unfold memCompletion
  refine (complete_twin _ E G G' _ _ s sp sp' hl).bind fun a b _ hr => ?_
  obtain ⟨⟨s1, p1⟩, l1⟩ := a
  obtain ⟨⟨s2, p2⟩, l2⟩ := b
  obtain ⟨e1, h1, e2⟩ := hr
  cases e1; cases e2
  dsimp only at h1 ⊢
  cases P.box with
  | none => exact h1.done
  | some box =>
    dsimp only
    split
    · obtain ⟨H, h, hc⟩ := h1
      refine (repaintAll_lock (H := H) (s := (s1.emit (.lit [0x0A])).emit (.lit (box l1))) h.congr hc).held fun t p q h1 hc1 => ?_
      exact both h1 (by rw [hc1]; exact hc)
    · exact h1.done

/-! ### main.go -/

theorem call_twin (E : Env) (G G' : Grow) {c : Cmd} (hc : c.builtin = true) (hx : c = .swapChar → X) : Paired X (c.memCall E G) (c.memCall E G') := by
  cases c with
  | acceptLine => intro s sp sp' h; exact h.done
  | interrupt => exact interrupt_twin
  | beginningOfLine => exact beginningOfLine_twin E
  | backwardChar => exact backwardChar_twin E
  | endOfLine => exact endOfLine_twin E
  | forwardChar => exact forwardChar_twin E G G'
  | backwardDeleteChar => exact backwardDeleteChar_twin E
  | deleteChar => exact deleteChar_twin E
  | deleteOrAbort => exact deleteOrAbort_twin E
  | killLine => exact killLine_twin E
  | killWholeLine => exact killWholeLine_twin
  | unixWordRubout => exact unixWordRubout_twin E
  | unixLineDiscard => exact unixLineDiscard_twin E
  | clearScreen => exact clearScreen_twin E
  | repaintOnNewline => exact repaintOnNewline_twin E
  | quotedInsert => exact quotedInsert_twin E G G'
  | yank => exact yank_twin E G G'
  | yankWithQuote => exact yankWithQuote_twin E G G'
  | swapChar => exact swapChar_twin E (hx rfl)
  | backwardWord => exact backwardWord_twin E
  | forwardWord => exact forwardWord_twin E
  | undo => exact undo_twin E G G'
  | previousHistory => exact previousHistory_twin E G G'
  | nextHistory => exact nextHistory_twin E G G'
  | isearchBackward => exact isearch_twin E G G'
  | selfInsert k => exact selfInsert_twin E G G' k
  | completion P => exact completion_twin E G G' P
  | custom f => cases hc

theorem promptSt_rest (E : Env) (w : World) : (promptSt E w).buf = [] ∧ (promptSt E w).undoes = [] := by
  unfold promptSt
  dsimp only
  let s0 : St := { cursor := w.cursor, clip := w.clip, termWidth := w.termWidth, input := w.input, out := w.out, promptN := w.promptN, histPtr := E.histLen }
  obtain ⟨e1, _, e3⟩ := callPrompt_same E s0
  split
  · exact ⟨e1, e3⟩
  · split
    · exact ⟨e1, e3⟩
    · exact ⟨e1, e3⟩

theorem start_lock (E : Env) (G G' : Grow) (w : World) :
    Lock X (fun a b => b.st = a.st ∧ Laid a.st a.spare b.spare) (memStart E G w) (memStart E G' w) := by
  obtain ⟨e1, e2⟩ := promptSt_rest E w
  have h0 : Pinned 0 (promptSt E w) (List.replicate 20 none) (List.replicate 20 none) :=
    ⟨⟨[], _, _, rfl, rfl, by rw [e1]; rfl⟩, fun u hu => by rw [e2] at hu; cases hu⟩
  unfold memStart
  refine (insertString_lock h0 0 E.default).bind fun a b _ hr => ?_
  obtain ⟨⟨s1, p1⟩, l1⟩ := a
  obtain ⟨⟨s2, p2⟩, l2⟩ := b
  obtain ⟨x1, hp, x2, h1, _⟩ := hr
  cases x1; cases x2
  dsimp only at h1 ⊢
  generalize max 0 ((promptSt E w).buf.length + l1.length) = H at h1
  have hle := h1.le
  by_cases hc : s1.cursor > s1.len
  · simp only [if_pos hc]
    unfold memRepaintAfterPrompt
    refine (repaint_lock (H := H) h1.congr (by show s1.len ≤ _; unfold St.len; omega)).held fun t p q h2 hc2 => ?_
    refine ⟨rfl, H, h2.congr, ?_⟩
    show t.cursor ≤ _
    rw [hc2]
    show s1.len ≤ _
    unfold St.len; omega
  · simp only [if_neg hc]
    unfold St.len at hc
    unfold memRepaintAfterPrompt
    refine (repaint_lock (H := H) h1.congr (by show s1.cursor ≤ _; omega)).held fun t p q h2 hc2 => ?_
    refine ⟨rfl, H, h2.congr, ?_⟩
    show t.cursor ≤ _
    rw [hc2]
    show s1.cursor ≤ _
    omega

theorem finish_twin (E : Env) (rc : Result) (s : St) (sp sp' : List (Option Cell)) (hl : Laid s sp sp') :
    Lock X TwoMem (memFinish E ⟨s, sp⟩ rc) (memFinish E ⟨s, sp'⟩ rc) := by
  obtain ⟨H, h, hc⟩ := hl
  unfold memFinish
  refine Lock.held (H := H) (c := s.cursor) ?_ fun t p q h1 hc1 => ?_
  · dsimp only
    cases s.suffix with
    | none => exact ⟨rfl, h, rfl⟩
    | some x => exact repaintNoSuffix_lock (H := H) h.congr hc
  · dsimp only
    split
    · exact both (H := H) h1.congr (by show t.cursor ≤ _; omega)
    · exact both (H := H) h1.congr (by show t.cursor ≤ _; omega)

theorem exec_twin (E : Env) (G G' : Grow) {c : Cmd} (hb : c.builtin = true) (hx : c = .swapChar → X) (s : St) (sp sp' : List (Option Cell))
    (hl : Laid s sp sp') : Lock X TwoMem (memExec E G c ⟨s, sp⟩) (memExec E G' c ⟨s, sp'⟩) := by
  obtain ⟨H, h, hc⟩ := hl
  unfold memExec
  refine (call_twin E G G' hb hx (s.emit .cursorOff) sp sp' ⟨H, h.congr, hc⟩).bind fun a b _ hr => ?_
  obtain ⟨⟨s1, p1⟩, r1⟩ := a
  obtain ⟨⟨s2, p2⟩, r2⟩ := b
  obtain ⟨e1, ⟨H', h1, hc1⟩, e2⟩ := hr
  cases e1; cases e2
  have hl1 : Laid (s1.emit .cursorOn) p1 p2 := ⟨H', h1.congr, hc1⟩
  have fin : ∀ rc, Lock X TwoMem (do let (m, r) ← memFinish E ⟨s1.emit .cursorOn, p1⟩ rc; return (m, some r))
      (do let (m, r) ← memFinish E ⟨s1.emit .cursorOn, p2⟩ rc; return (m, some r)) := by
    intro rc
    refine (finish_twin E rc _ _ _ hl1).bind fun a b _ hr => ?_
    obtain ⟨⟨s1, p1⟩, r1⟩ := a
    obtain ⟨⟨s2, p2⟩, r2⟩ := b
    obtain ⟨e1, h2, e2⟩ := hr
    cases e1; cases e2
    exact Laid.done h2
  cases r1 with
  | cont => exact hl1.done
  | enter => exact fin _
  | abort => exact fin _
  | intr => exact fin _

theorem onResize_lock {E : Env} {H : Nat} {s : St} {sp sp' : List (Option Cell)} (w : Int) (h : Pinned H s sp sp')
    (hc : s.cursor ≤ H) : Lock X (PinnedAt H s.cursor) (memOnResize E ⟨s, sp⟩ w) (memOnResize E ⟨s, sp'⟩ w) := by
  let s1 : St := resetViewStart E { s with termWidth := w }
  have h1 : Pinned H s1 sp sp' := h.congr
  have := repaintLastLine_lock (X := X) (E := E) (s := s1) h1 hc
  unfold memOnResize
  exact this

theorem step_twin {E : Env} (hb : Spec.BuiltinKeys E) (hx : ∀ k, lookupCommand E k = .swapChar → X) (G G' : Grow) (s : St) (sp sp' : List (Option Cell)) (hl : Laid s sp sp') :
    Lock X TwoMem (memStep E G ⟨s, sp⟩) (memStep E G' ⟨s, sp'⟩) := by
  obtain ⟨H, h, hc⟩ := hl
  unfold memStep
  dsimp only
  rcases s.input with _ | ⟨e, rest⟩
  · exact both (H := H) h.congr hc
  · cases e with
    | err e => exact both (H := H) h.congr hc
    | resize w =>
      have h0 : Pinned H { s with input := rest } sp sp' := h.congr
      exact (onResize_lock (s := { s with input := rest }) w h0 hc).held fun t p q h1 hc1 => both h1 (by rw [hc1]; exact hc)
    | key k => exact exec_twin E G G' (BuiltinKeys.builtin hb k) (hx k) _ sp sp' ⟨H, h.congr, hc⟩

theorem loop_twin {E : Env} (hb : Spec.BuiltinKeys E) (hx : ∀ k, lookupCommand E k = .swapChar → X) (G G' : Grow) (n : Nat) (s : St) (sp sp' : List (Option Cell))
    (hl : Laid s sp sp') : Lock X TwoMem (memLoop E G n ⟨s, sp⟩) (memLoop E G' n ⟨s, sp'⟩) := by
  induction n generalizing s sp sp' with
  | zero => exact ⟨rfl, Or.inr ⟨rfl, _, rfl⟩⟩
  | succ n ih =>
    unfold memLoop
    refine (step_twin hb hx G G' s sp sp' hl).bind fun a b _ hr => ?_
    obtain ⟨⟨s1, p1⟩, r1⟩ := a
    obtain ⟨⟨s2, p2⟩, r2⟩ := b
    obtain ⟨e1, h1, e2⟩ := hr
    cases e1; cases e2
    cases r1 with
    | some r => exact Laid.done h1
    | none => exact ih s1 p1 p2 h1

/-- Two runs of `ReadLine` with two runtimes. -/
theorem readLine_twin {E : Env} (hb : Spec.BuiltinKeys E) (hx : ∀ k, lookupCommand E k = .swapChar → X) (G G' : Grow) (w : World) :
    Lock X TwoMem (memReadLine E G w) (memReadLine E G' w) := by
  unfold memReadLine
  refine (start_lock E G G' w).bind fun a b _ hr => ?_
  obtain ⟨s1, p1⟩ := a
  obtain ⟨s2, p2⟩ := b
  obtain ⟨e1, h1⟩ := hr
  cases e1
  exact loop_twin hb hx G G' _ s1 p1 p2 h1

/-- The memory after `n` keys. -/
def memSteps (E : Env) (G : Grow) : Nat → Mem → HM Mem
  | 0, m => return m
  | n + 1, m => do
    let (m, _) ← memStep E G m
    memSteps E G n m

/-- The memory when key `n` is awaited. -/
def memAfter (E : Env) (G : Grow) (w : World) (n : Nat) : HM Mem := do
  let m ← memStart E G w
  memSteps E G n m

theorem steps_twin {E : Env} (hb : Spec.BuiltinKeys E) (hx : ∀ k, lookupCommand E k = .swapChar → X) (G G' : Grow) (n : Nat) (s : St) (sp sp' : List (Option Cell))
    (hl : Laid s sp sp') : Lock X (fun a b => b.st = a.st ∧ Laid a.st a.spare b.spare) (memSteps E G n ⟨s, sp⟩)
      (memSteps E G' n ⟨s, sp'⟩) := by
  induction n generalizing s sp sp' with
  | zero => exact ⟨rfl, hl⟩
  | succ n ih =>
    unfold memSteps
    refine (step_twin hb hx G G' s sp sp' hl).bind fun a b _ hr => ?_
    obtain ⟨⟨s1, p1⟩, r1⟩ := a
    obtain ⟨⟨s2, p2⟩, r2⟩ := b
    obtain ⟨e1, h1, e2⟩ := hr
    cases e1; cases e2
    exact ih s1 p1 p2 h1

theorem after_twin {E : Env} (hb : Spec.BuiltinKeys E) (hx : ∀ k, lookupCommand E k = .swapChar → X) (G G' : Grow) (w : World) (n : Nat) :
    Lock X (fun a b => b.st = a.st ∧ Laid a.st a.spare b.spare) (memAfter E G w n) (memAfter E G' w n) := by
  unfold memAfter
  refine (start_lock E G G' w).bind fun a b _ hr => ?_
  obtain ⟨s1, p1⟩ := a
  obtain ⟨s2, p2⟩ := b
  obtain ⟨e1, h1⟩ := hr
  cases e1
  exact steps_twin hb hx G G' _ s1 p1 p2 h1

end Readline
