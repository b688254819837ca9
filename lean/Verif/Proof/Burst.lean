import Verif.Spec.Burst
import Verif.Proof.InkCall
import Verif.Proof.Waits
import Verif.Proof.Steady
import Verif.Props.C06
/-!
# Counting what a step prints

Every unit is at least one column wide, so whatever fits a row is at most as many units as the row
has columns.
-/
namespace Readline
open Spec

/-! ## Weighing the output -/

/-- What one token counts. -/
def Tok.cost (a b : Nat) : Tok → Nat
  | .glyph _ => a
  | .sgr _ => b
  | _ => 0

/-- What a piece of output counts. -/
def weigh (a b : Nat) (t : List Tok) : Nat := (t.map (Tok.cost a b)).sum

/-- What the output since the last wait counts. -/
def since (a b : Nat) (t : List Tok) : Nat :=
  t.foldl (fun n x => if x = .await then 0 else n + x.cost a b) 0

theorem since_snoc (a b : Nat) (t : List Tok) (x : Tok) :
    since a b (t ++ [x]) = if x = .await then 0 else since a b t + x.cost a b := by
  simp [since]

theorem since_append {a b : Nat} (t : List Tok) {u : List Tok} (h : Tok.await ∉ u) :
    since a b (t ++ u) = since a b t + weigh a b u := by
  induction u generalizing t with
  | nil => simp [weigh]
  | cons x u ih =>
    have hx : x ≠ .await := fun e => h (by simp [e])
    have := ih (t ++ [x]) (fun hm => h (by simp [hm]))
    rw [since_snoc, if_neg hx] at this
    rw [show t ++ x :: u = t ++ [x] ++ u by simp, this]
    simp only [weigh, List.map_cons, List.sum_cons]
    omega

theorem weigh_append (a b : Nat) (t u : List Tok) : weigh a b (t ++ u) = weigh a b t + weigh a b u := by
  simp [weigh]

theorem weigh_glyphs (a b : Nat) (l : List Moji) : weigh a b (l.map Tok.glyph) = a * l.length := by
  induction l with
  | nil => rfl
  | cons m l ih =>
    simp only [List.map_cons, weigh, List.sum_cons, List.length_cons] at *
    rw [ih]
    show a + _ = _
    rw [Nat.mul_succ]
    omega

/-- Never more than `n` between two waits. -/
def Peak (a b n : Nat) (t : List Tok) : Prop := ∀ p, p <+: t → since a b p ≤ n

theorem Peak.nil {a b n : Nat} : Peak a b n [] := fun p h => by
  rw [List.prefix_nil.mp h]; exact Nat.zero_le _

theorem Peak.add {a b n : Nat} {t u : List Tok} (h : Peak a b n t) (hu : Tok.await ∉ u)
    (hn : since a b t + weigh a b u ≤ n) : Peak a b n (t ++ u) := by
  intro p hp
  rcases Nat.le_total p.length t.length with h1 | h1
  · exact h p (List.prefix_of_prefix_length_le hp (List.prefix_append t u) h1)
  · obtain ⟨v, rfl⟩ := List.prefix_of_prefix_length_le (List.prefix_append t u) hp h1
    obtain ⟨w, rfl⟩ := (List.prefix_append_right_inj t).mp hp
    rw [weigh_append] at hn
    rw [since_append _ (fun hm => hu (by simp [hm]))]
    omega

theorem Peak.wait {a b n : Nat} {t : List Tok} (h : Peak a b n t) : Peak a b n (t ++ [.await]) := by
  intro p hp
  rcases List.prefix_concat_iff.mp hp with h1 | h1
  · subst h1
    rw [since_snoc, if_pos rfl]
    exact Nat.zero_le _
  · exact h p h1

theorem Peak.infix {a b n : Nat} {t u : List Tok} (h : Peak a b n t) (hu : u <:+: t) (ha : Tok.await ∉ u) :
    weigh a b u ≤ n := by
  obtain ⟨x, y, e⟩ := hu
  have := h (x ++ u) ⟨y, e⟩
  rw [since_append _ ha] at this
  omega

theorem weigh_shows (t : List Tok) : weigh 1 0 t = t.countP Spec.Tok.shows := by
  induction t with
  | nil => rfl
  | cons x t ih =>
    simp only [weigh, List.map_cons, List.sum_cons, List.countP_cons] at *
    rw [ih]
    cases x <;> simp [Tok.cost, Spec.Tok.shows, Nat.add_comm]

theorem weigh_tints (t : List Tok) : weigh 0 1 t = t.countP Spec.Tok.tints := by
  induction t with
  | nil => rfl
  | cons x t ih =>
    simp only [weigh, List.map_cons, List.sum_cons, List.countP_cons] at *
    rw [ih]
    cases x <;> simp [Tok.cost, Spec.Tok.tints, Nat.add_comm]

/-! ## Units have a width -/

/-- Code points have a width and joining does not make it vanish. -/
structure Broad (C : Cfg) : Prop where
  width : ∀ r, 0 ≤ C.width r
  zwj : ∀ a b, 0 ≤ a → 0 ≤ b → 1 ≤ C.zwjWidth a b

theorem tab_wide (C : Cfg) (p : Int) : 1 ≤ (Moji.tab p).width C := by
  show 1 ≤ 4 - Int.tmod p 4
  have := Int.tmod_lt_of_pos p (b := 4) (by omega)
  omega

theorem rune2moji_wide {C : Cfg} (h : Broad C) (r : Rune) (p : Int) : 1 ≤ (rune2moji C r p).width C := by
  unfold rune2moji
  split
  · exact tab_wide C _
  · split
    · show (1 : Int) ≤ 2; omega
    · split
      · show (1 : Int) ≤ 2; omega
      · split
        · show 1 ≤ lenEscapedLoop r 3
          have := lenEscapedLoop_ge r 3
          omega
        · rename_i he
          split
          · show (1 : Int) ≤ 2; omega
          · split
            · show (1 : Int) ≤ 2; omega
            · split
              · show (1 : Int) ≤ 2; omega
              · show 1 ≤ C.width r
                have h0 := h.width r
                have h1 : C.width r ≠ 0 := by
                  intro e
                  apply he
                  simp [isToBeEscaped, e]
                omega

theorem vari_wide {C : Cfg} {m x : Moji} (h : 1 ≤ m.width C) : 1 ≤ (Moji.vari m x).width C := by
  cases m <;> simp only [Moji.width] at * <;> omega

theorem stringToMojiLoop_wide {C : Cfg} (h : Broad C) (s : Bytes) (acc : List Moji) (pos : Int)
    (ha : ∀ m ∈ acc, 1 ≤ m.width C) : ∀ m ∈ stringToMojiLoop C s acc pos, 1 ≤ m.width C := by
  induction hn : s.length using Nat.strongRecOn generalizing s acc pos with
  | _ n ih =>
    cases s with
    | nil =>
      unfold stringToMojiLoop
      intro m hm
      exact ha m (List.mem_reverse.mp hm)
    | cons c t =>
      have hd := drop_decode_lt c t
      subst hn
      unfold stringToMojiLoop
      dsimp only
      have cons : ∀ (x : Moji) (l : List Moji), 1 ≤ x.width C → (∀ m ∈ l, 1 ≤ m.width C) →
          ∀ m ∈ x :: l, 1 ≤ m.width C := by
        intro x l h1 h2 m hm
        rcases List.mem_cons.mp hm with e | e
        · rw [e]; exact h1
        · exact h2 m e
      cases acc with
      | nil =>
        exact ih _ hd _ _ _ (cons _ _ (rune2moji_wide h _ _) (fun _ hm => nomatch hm)) rfl
      | cons last rest =>
        have hl := ha last (by simp)
        have hr : ∀ m ∈ rest, 1 ≤ m.width C := fun m hm => ha m (by simp [hm])
        dsimp only
        split
        · refine ih _ ?_ _ _ _ (cons _ _ (h.zwj _ _ (by omega) (h.width _)) hr) rfl
          simp only [List.length_drop] at *
          omega
        · split
          · exact ih _ hd _ _ _ (cons _ _ (vari_wide hl) hr) rfl
          · split
            · refine ih _ hd _ _ _ (cons _ _ ?_ hr) rfl
              show 1 ≤ last.width C + C.width _
              have := h.width (decodeRune (c :: t)).1
              omega
            · exact ih _ hd _ _ _ (cons _ _ (rune2moji_wide h _ _) ha) rfl

/-- Every unit of a text takes a column. -/
theorem stringToMoji_wide {C : Cfg} (h : Broad C) (s : Bytes) : ∀ m ∈ stringToMoji C s, 1 ≤ m.width C :=
  stringToMojiLoop_wide h s [] 0 (fun _ hm => nomatch hm)

/-- Cells that take a column each. -/
def Stout (C : Cfg) (cs : List Cell) : Prop := ∀ c ∈ cs, 1 ≤ c.moji.width C

theorem Stout.len {C : Cfg} {cs : List Cell} (h : Stout C cs) : (cs.length : Int) ≤ cellsWidth C cs := by
  induction cs with
  | nil => simp [cellsWidth]
  | cons c cs ih =>
    have h1 := h c (by simp)
    have h2 := ih fun x hx => h x (by simp [hx])
    simp only [cellsWidth, List.map_cons, List.sum_cons, List.length_cons] at *
    omega

theorem Stout.sub {C : Cfg} {cs ds : List Cell} (h : Stout C cs) (hd : ∀ c ∈ ds, c ∈ cs) : Stout C ds :=
  fun c hc => h c (hd c hc)

theorem Stout.mojis {C : Cfg} (h : Broad C) (t : Bytes) : Stout C (mojis2cells (stringToMoji C t)) := by
  intro c hc
  obtain ⟨m, hm, rfl⟩ := List.mem_map.mp hc
  exact stringToMoji_wide h t m hm

theorem refreshCell_wide {C : Cfg} (K : Coloring) (σ : K.σ) (p : Int) {c : Cell} (h : 1 ≤ c.moji.width C) :
    1 ≤ (refreshCell C K σ p c).2.2.moji.width C := by
  unfold refreshCell
  split
  · exact tab_wide C _
  · split <;> exact h

theorem Stout.refresh {C : Cfg} (K : Coloring) (cursor : Int) {cs : List Cell} (h : Stout C cs) (σ : K.σ) (i p : Int) :
    Stout C (refreshLoop C K cursor σ i p cs) := by
  induction cs generalizing σ i p with
  | nil => exact fun _ hm => nomatch hm
  | cons c cs ih =>
    unfold refreshLoop
    dsimp only
    intro x hx
    rcases List.mem_cons.mp hx with e | e
    · rw [e]; exact refreshCell_wide K _ _ (h c (by simp))
    · exact ih (fun y hy => h y (by simp [hy])) _ _ _ x e

theorem refreshLoop_len (C : Cfg) (K : Coloring) (cursor : Int) (cs : List Cell) (σ : K.σ) (i p : Int) :
    (refreshLoop C K cursor σ i p cs).length = cs.length := by
  induction cs generalizing σ i p with
  | nil => rfl
  | cons c cs ih =>
    unfold refreshLoop
    dsimp only
    rw [List.length_cons, ih, List.length_cons]

/-! ## Counting the loops -/

theorem viewLoop_count {C : Cfg} {vw : Int} {cs : List Cell} (h : Stout C cs) (w : Int) (n : Nat)
    (hn : (n : Int) ≤ w) : ((viewLoop C vw cs w n).1 : Int) ≤ (viewLoop C vw cs w n).2 ∧
      ((viewLoop C vw cs w n).2 < vw ∨ (viewLoop C vw cs w n) = (n, w)) := by
  induction cs generalizing w n with
  | nil => exact ⟨hn, .inr rfl⟩
  | cons c cs ih =>
    have h1 := h c (by simp)
    unfold viewLoop
    dsimp only
    split
    · exact ⟨hn, .inr rfl⟩
    · rename_i hc
      obtain ⟨a, b⟩ := ih (fun x hx => h x (by simp [hx])) (w + c.moji.width C) (n + 1) (by omega)
      refine ⟨a, .inl ?_⟩
      rcases b with b | b
      · exact b
      · rw [b]; show w + c.moji.width C < vw; omega

theorem suffixLoop_count {C : Cfg} {vw : Int} {ms : List Moji} (hm : ∀ m ∈ ms, 1 ≤ m.width C) (w : Int)
    {s s' : St} (h : suffixLoop C vw ms w s = .ok s') :
    ∃ l : List Moji, s' = { s with out := s.out ++ l.map Tok.glyph } ∧ (l = [] ∨ w + l.length < vw) := by
  induction ms generalizing w s with
  | nil => cases h; exact ⟨[], by simp, .inl rfl⟩
  | cons m ms ih =>
    rw [suffixLoop] at h
    have h1 := hm m (by simp)
    split at h
    · cases h; exact ⟨[], by simp, .inl rfl⟩
    · rename_i hc
      obtain ⟨s1, h2, h⟩ := bind_ok.mp h
      obtain ⟨l, e, hl⟩ := ih (fun x hx => hm x (by simp [hx])) _ h
      unfold printMoji at h2
      split at h2 <;> cases h2
      refine ⟨m :: l, by rw [e]; simp [St.emit], .inr ?_⟩
      simp only [List.length_cons]
      rcases hl with rfl | hl
      · simp only [List.length_nil]; omega
      · omega

theorem drawLoop_count {C : Cfg} {vw : Int} {ms : List Moji} (hm : ∀ m ∈ ms, 1 ≤ m.width C) (w : Int)
    {s s' : St} (h : drawLoop C vw ms w s = .ok s') :
    ∃ l : List Moji, s' = { s with out := s.out ++ l.map Tok.glyph } ∧ (l = [] ∨ w + l.length < vw) := by
  induction ms generalizing w s with
  | nil => cases h; exact ⟨[], by simp, .inl rfl⟩
  | cons m ms ih =>
    rw [drawLoop] at h
    have h1 := hm m (by simp)
    split at h
    · cases h; exact ⟨[], by simp, .inl rfl⟩
    · rename_i hc
      obtain ⟨s1, h2, h⟩ := bind_ok.mp h
      obtain ⟨l, e, hl⟩ := ih (fun x hx => hm x (by simp [hx])) _ h
      unfold printMoji at h2
      split at h2 <;> cases h2
      refine ⟨m :: l, by rw [e]; simp [St.emit], .inr ?_⟩
      simp only [List.length_cons]
      rcases hl with rfl | hl
      · simp only [List.length_nil]; omega
      · omega

theorem eolLoop_count {C : Cfg} {buf : List Cell} {vw : Int} (h : Stout C buf) (k : Nat) (w : Int) :
    eolLoop C buf vw k w ≤ k ∧ (eolLoop C buf vw k w = k ∨ ((k : Int) - eolLoop C buf vw k w) + w < vw) := by
  induction k generalizing w with
  | zero => exact ⟨Nat.le_refl _, .inl rfl⟩
  | succ k ih =>
    unfold eolLoop
    cases hk : buf[k]? with
    | none => exact ⟨Nat.le_refl _, .inl rfl⟩
    | some c =>
      have h1 := h c (List.mem_of_getElem? hk)
      dsimp only
      split
      · exact ⟨Nat.le_refl _, .inl rfl⟩
      · rename_i hc
        obtain ⟨a, b⟩ := ih (w + c.moji.width C)
        refine ⟨by omega, .inr ?_⟩
        rcases b with b | b
        · rw [b]; omega
        · omega

/-- The width of the first `k` cells. -/
def pre (C : Cfg) (buf : List Cell) (k : Nat) : Int := cellsWidth C (buf.take k)

theorem pre_succ {C : Cfg} {buf : List Cell} {k : Nat} {c : Cell} (h : buf[k]? = some c) :
    pre C buf (k + 1) = pre C buf k + c.moji.width C := by
  obtain ⟨hl, e⟩ := List.getElem?_eq_some_iff.mp h
  unfold pre
  rw [List.take_succ_eq_append_getElem hl, e]
  simp [cellsWidth]

theorem pre_le {C : Cfg} {buf : List Cell} (h : Stout C buf) {i j : Nat} (hij : i ≤ j) (hj : j ≤ buf.length) :
    (j : Int) - i ≤ pre C buf j - pre C buf i := by
  induction j with
  | zero =>
    have : i = 0 := by omega
    subst this
    simp
  | succ j ih =>
    rcases Nat.lt_or_ge j i with hlt | hge
    · have : i = j + 1 := by omega
      subst this
      omega
    · have hg : buf[j]? = some buf[j] := List.getElem?_eq_getElem (by omega)
      have h1 := h _ (List.mem_of_getElem? hg)
      have h2 := pre_succ (C := C) hg
      have := ih hge (by omega)
      omega

theorem resetInner_count {C : Cfg} {buf : List Cell} {vw : Int} {x : Int} (fuel vs : Nat) (w : Int)
    (hw : w = x - pre C buf vs) (hv : vs ≤ buf.length) (hf : buf.length < vs + fuel) :
    match resetInner C buf vw fuel vs w with
    | (vs', some w') => w' = x - pre C buf vs' ∧ w' < vw ∧ vs' ≤ buf.length
    | (vs', none) => buf.length ≤ vs' := by
  induction fuel generalizing vs w with
  | zero => omega
  | succ fuel ih =>
    by_cases hge : w ≥ vw
    · rw [resetInner, if_pos hge]
      cases hg : buf[vs]? with
      | none => exact List.getElem?_eq_none_iff.mp hg
      | some c =>
        have hl : vs < buf.length := (List.getElem?_eq_some_iff.mp hg).1
        have := pre_succ (C := C) hg
        exact ih (vs + 1) _ (by omega) (by omega) (by omega)
    · rw [resetInner, if_neg hge]
      exact ⟨hw, by omega, hv⟩

theorem resetOuter_count {C : Cfg} {buf : List Cell} (h : Stout C buf) {vw cursor : Int} {m : Nat} (hm : vw - 1 ≤ m)
    (hc : cursor ≤ buf.length) (cs : List Cell) (i vs : Nat) (w : Int) (hcs : cs = buf.drop i)
    (hi : i ≤ buf.length) (hw : w = pre C buf i - pre C buf vs) (hv : vs ≤ buf.length) (hn : (i : Int) - vs ≤ m) :
    cursor ≤ resetOuter C buf vw cursor cs i vs w + m := by
  induction cs generalizing i vs w with
  | nil =>
    have : buf.length ≤ i := List.drop_eq_nil_iff.mp hcs.symm
    unfold resetOuter
    omega
  | cons c cs ih =>
    have hlt : i < buf.length := by
      rcases Nat.lt_or_ge i buf.length with h | h
      · exact h
      · rw [List.drop_eq_nil_of_le h] at hcs; cases hcs
    rw [List.drop_eq_getElem_cons hlt] at hcs
    injection hcs with e1 e2
    have hg : buf[i]? = some c := by rw [List.getElem?_eq_getElem hlt, e1]
    have hp := pre_succ (C := C) hg
    unfold resetOuter
    split
    · have key := resetInner_count (C := C) (buf := buf) (vw := vw) (x := pre C buf (i + 1)) (buf.length + 1) vs
        (w + c.moji.width C) (by omega) hv (by omega)
      generalize resetInner C buf vw (buf.length + 1) vs (w + c.moji.width C) = q at key
      obtain ⟨vs', ow⟩ := q
      cases ow with
      | none =>
        dsimp only at key ⊢
        omega
      | some w' =>
        dsimp only at key ⊢
        refine ih (i + 1) vs' w' e2 (by omega) key.1 key.2.2 ?_
        rcases Nat.lt_or_ge (i + 1) vs' with hlt' | hge
        · omega
        · have := pre_le h hge (by omega)
          omega
    · omega

end Readline
