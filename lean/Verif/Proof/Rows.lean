import Verif.Spec.Transcript
import Verif.Proof.Sign
import Verif.Props.C51
/-!
# One row of the terminal at a time

In an ordinary session everything but the line feed of the first prompt and the one at the end stays in one row.
-/
namespace Readline
open Spec

variable {E : Env} {w : World} {s : St} {adv : Rune → Int} {P : Nat → Prop}

/-! ## The terminal -/

/-- The cursor is in the same row and the other rows are as before. -/
structure Level (v v' : Vt) : Prop where
  width : v'.width = v.width
  height : v'.height = v.height
  row : v'.row = v.row
  others : ∀ y, y ≠ v.row → v'.cells y = v.cells y

theorem Level.refl (v : Vt) : Level v v := ⟨rfl, rfl, rfl, fun _ _ => rfl⟩

theorem Level.trans {v v1 v2 : Vt} (h1 : Level v v1) (h2 : Level v1 v2) : Level v v2 :=
  ⟨h2.width.trans h1.width, h2.height.trans h1.height, h2.row.trans h1.row,
    fun y hy => (h2.others y (by rw [h1.row]; exact hy)).trans (h1.others y hy)⟩

theorem Unmoved.level {v v' : Vt} (h : Unmoved v v') : Level v v' := ⟨h.width, h.height, h.row, fun y _ => by rw [h.cells]⟩

/-- The row begins with the prompt, and the cursor is behind it. -/
structure Prompted (S : Sign) (C : Cfg) (adv : Rune → Int) (v : Vt) : Prop where
  col : S.columns C ≤ v.col
  seen : S.At C adv v v.row

theorem Unmoved.prompted {S : Sign} {C : Cfg} {v v' : Vt} (h : Unmoved v v') (hp : Prompted S C adv v) : Prompted S C adv v' :=
  ⟨by rw [h.col]; exact hp.col, by rw [h.row]; unfold Sign.At; rw [h.cells]; exact hp.seen⟩

/-- The row to which the prompt goes. -/
def Spec.Sign.base (S : Sign) (v : Vt) : Vt := if S.down then v.newline else v

/-- A prompt that is written. -/
theorem hangs_prompted {S : Sign} {C : Cfg} {v : Vt} {b : Bytes} (h : S.Hangs C adv v b) :
    Level (S.base v) (v.run adv b) ∧ Prompted S C adv (v.run adv b) := by
  obtain ⟨-, h2, h3, h4, h5, h6⟩ := h
  refine ⟨⟨?_, h2, h3, h4⟩, by rw [h5]; exact Int.le_refl _, h3 ▸ h6⟩
  show (v.feed adv _).width = _
  rw [feed_width]
  unfold Sign.base
  split
  · exact (newline_width v).symm
  · rfl

/-- What stays in the row, behind the prompt or with the prompt written again. -/
def Spec.Rowed (P : Nat → Prop) (E : Env) (c : Int) (t : Tok) : Prop := Hushed P E c t ∨ ∃ n, t = .lit (signAgain E n)

theorem rowed_inks (P : Nat → Prop) (E : Env) (c : Int) : Inks P E c (Rowed P E c) where
  off := .inl trivial
  on := .inl trivial
  flush := .inl trivial
  await := .inl trivial
  erase := .inl trivial
  sgr _ := .inl trivial
  goto := .inl rfl
  glyph r hr := .inl ⟨r, hr, rfl⟩
  color1 := .inl (.inl rfl)
  color2 := .inl (.inr (.inl rfl))
  bell := .inl (.inr (.inr rfl))

theorem Reads.unique {bs : Bytes} {rs qs : List Rune} (h1 : Reads bs rs) (h2 : Reads bs qs) : rs = qs := by
  have a := h1 []
  have b := h2 []
  rw [runesOf_nil, List.append_nil, List.append_nil] at a b
  exact a.symm.trans b

theorem Spec.Sign.Of.nonneg {S : Sign} {W : Int} (h : S.Of E adv W) : 0 ≤ S.columns E.cfg := textColumns_nonneg fun r hr => (h.plain r hr).1

/-- A piece of output that stays in the row. -/
theorem rowed_receive (hA : AgreesPlain E.cfg adv) (hc1 : Sgr E.predictColor.1) (hc2 : Sgr E.predictColor.2) {W : Int} {S : Sign} (hS : S.Of E adv W) (hW : S.columns E.cfg < W)
    {t : Tok} (ht : Rowed (fun r => Plain E.cfg r ∧ isScalar r = true) E (S.columns E.cfg) t) {rs : List Rune} (hrs : Reads (t.bytes E.cfg) rs) {r : Row}
    {v : Vt} (h : Mirrors adv r v) (hv : v.width = W) (hf : (Row.receive E.cfg (blur E adv W) r t).high ≤ W) (hp : Prompted S E.cfg adv v) :
    Level v (v.feed adv rs) ∧ Prompted S E.cfg adv (v.feed adv rs) := by
  have still : ∀ {qs : List Rune}, Reads (t.bytes E.cfg) qs → Unmoved v (v.feed adv qs) → Level v (v.feed adv rs) ∧ Prompted S E.cfg adv (v.feed adv rs) := by
    intro qs hq hu
    rw [hrs.unique hq]
    exact ⟨hu.level, hu.prompted hp⟩
  rcases ht with ht | ⟨n, rfl⟩
  · cases t with
    | flush => exact still Reads.nil ⟨h.mode, rfl, rfl, rfl, rfl, rfl⟩
    | await => exact still Reads.nil ⟨h.mode, rfl, rfl, rfl, rfl, rfl⟩
    | cursorOff =>
      exact still (reads_csi (ps := [0x3F, 0x32, 0x35]) (f := 0x6C) (by decide) (by decide))
        (unmoved_csi h.mode (by decide) (by decide) (by decide) ⟨rfl, rfl, rfl, rfl, rfl, rfl⟩)
    | cursorOn =>
      refine still (((reads_csi (ps := [0x3F, 0x32, 0x35]) (f := 0x68) (by decide) (by decide)).append
        (reads_csi (ps := []) (f := 0x73) (by decide) (by decide))).append
        (reads_csi (ps := []) (f := 0x75) (by decide) (by decide))) ?_
      rw [feed_append v (_ ++ _ ++ _ ++ (_ ++ _ ++ _)) (_ ++ _ ++ _), feed_append v (_ ++ _ ++ _) (_ ++ _ ++ _), feed_csi h.mode (by decide) (by decide) (by decide),
        feed_csi (v := v.control _ _) rfl (by decide) (by decide) (by decide),
        feed_csi (v := (v.control _ _).control _ _) rfl (by decide) (by decide) (by decide)]
      exact ⟨rfl, rfl, rfl, rfl, rfl, rfl⟩
    | gotoCol n =>
      have hn : n = S.columns E.cfg + 1 := ht
      have h0 := hS.nonneg
      have hd : decInt n = decNat n.toNat := by unfold decInt; rw [if_neg (by omega)]
      have hdig := decNat_digits n.toNat
      have hr : Reads ((Tok.gotoCol n).bytes E.cfg) ([0x1B, 0x5B] ++ (decNat n.toNat).map UInt8.toNat ++ [(0x47 : UInt8).toNat]) := by
        show Reads ([0x1B, 0x5B] ++ decInt n ++ [0x47]) _
        rw [hd]
        exact reads_csi (fun x hx => by have := hdig x hx; omega) (by decide)
      rw [hrs.unique hr, feed_csi h.mode (fun q hq => by
        obtain ⟨x, hx, rfl⟩ := List.mem_map.mp hq
        have := hdig x hx
        omega) (by decide) (by decide)]
      have e : v.control ((decNat n.toNat).map UInt8.toNat) 0x47 = { v with mode := .ground, col := n - 1 } := by
        show ({ v with mode := .ground } : Vt).along (max 1 ((Vt.param ((decNat n.toNat).map UInt8.toNat) 0 1 : Nat) : Int) - 1) = _
        rw [param_decNat]
        unfold Vt.along
        dsimp only
        have : max 0 (min (max 1 (n.toNat : Int) - 1) (v.width - 1)) = n - 1 := by omega
        rw [this]
      rw [show (0x47 : UInt8).toNat = 0x47 from rfl, e]
      exact ⟨⟨rfl, rfl, rfl, fun _ _ => rfl⟩, ⟨by show S.columns E.cfg ≤ n - 1; omega, hp.seen⟩⟩
    | eraseEol =>
      have hr : Reads (Tok.eraseEol.bytes E.cfg) _ := reads_csi (ps := [0x30]) (f := 0x4B) (by decide) (by decide)
      rw [hrs.unique hr, feed_csi h.mode (by decide) (by decide) (by decide)]
      have hcol := hp.col
      refine ⟨⟨rfl, rfl, rfl, fun y hy => ?_⟩, ⟨hcol, fun x h1 h2 => ?_⟩⟩
      · funext x
        show (if (y == v.row && decide (v.col ≤ x)) = true then none else v.cells y x) = _
        rw [if_neg (by simp [hy])]
      · show (if (v.row == v.row && decide (v.col ≤ x)) = true then none else v.cells v.row x) = _
        rw [if_neg (by simp; omega)]
        exact hp.seen x h1 h2
    | sgr c =>
      obtain ⟨qs, h1, h2⟩ := sgr_unmoved (adv := adv) (sgr_write c)
      exact still h1 (h2 v h.mode)
    | glyph m =>
      obtain ⟨q, ⟨hq, hs⟩, rfl⟩ := ht
      obtain ⟨qs, h1, h2⟩ := glyph_drawn hA hq hs
      obtain ⟨-, hw, hw1, -⟩ := plain_columns hq
      have hf : max r.high (r.col + (rune2moji E.cfg q 0).width E.cfg) ≤ W := hf
      rw [hw] at hf
      have hd := h2 v h.mode (by rw [h.col]; exact h.low) (by rw [h.col]; omega)
      have hcol := hp.col
      rw [hrs.unique h1]
      refine ⟨⟨feed_width _ _, hd.height, hd.row, hd.others⟩, ⟨by rw [hd.col]; omega, fun x h1 h2 => ?_⟩⟩
      rw [hd.row, hd.cells, if_neg (by omega)]
      exact hp.seen x h1 h2
    | lit b =>
      rcases ht with rfl | rfl | rfl
      · obtain ⟨qs, h1, h2⟩ := sgr_unmoved (adv := adv) hc1
        exact still h1 (h2 v h.mode)
      · obtain ⟨qs, h1, h2⟩ := sgr_unmoved (adv := adv) hc2
        exact still h1 (h2 v h.mode)
      · exact still (Reads.ascii (bs := [7]) (by decide)) (bell_unmoved v h.mode)
  · have hg := hS.again n v h.mode hv (by rw [h.col]; exact h.low)
    have hr : v.run adv (signAgain E n) = v.feed adv rs := reads_run hrs v
    rw [← hr]
    obtain ⟨a1, a2⟩ := hangs_prompted (S := ⟨false, S.shown⟩) hg
    exact ⟨a1, a2.col, a2.seen⟩

/-- Output that stays in the row. -/
theorem rowed_run (hA : AgreesPlain E.cfg adv) (hc1 : Sgr E.predictColor.1) (hc2 : Sgr E.predictColor.2) {W : Int} {S : Sign} (hS : S.Of E adv W) (hW : S.columns E.cfg < W)
    {ts : List Tok} (ht : ∀ t ∈ ts, Rowed (fun r => Plain E.cfg r ∧ isScalar r = true) E (S.columns E.cfg) t) (hs : ∀ t ∈ ts, Simple E adv W t) {r : Row}
    {v : Vt} (h : Mirrors adv r v) (hv : v.width = W) (hf : (Row.run E.cfg (blur E adv W) r ts).high ≤ W) (hp : Prompted S E.cfg adv v) :
    Level v (v.run adv (ts.flatMap (Tok.bytes E.cfg))) ∧ Prompted S E.cfg adv (v.run adv (ts.flatMap (Tok.bytes E.cfg))) := by
  induction ts generalizing r v with
  | nil => show Level v (v.run adv []) ∧ Prompted S E.cfg adv (v.run adv []); unfold Vt.run; rw [runesOf_nil]; exact ⟨Level.refl v, hp⟩
  | cons t ts ih =>
    have h0 := hS.nonneg
    obtain ⟨rs, h1, h2⟩ := Mirrors.receive hA hc1 hc2 (by omega) (hs t (by simp))
    rw [List.flatMap_cons, h1.run]
    have hf' := row_high_run (E := E) (adv := adv) (W := W) ts (Row.receive E.cfg (blur E adv W) r t)
    have hf1 := Int.le_trans hf' hf
    obtain ⟨a1, a2⟩ := rowed_receive hA hc1 hc2 hS hW (ht t (by simp)) h1 h hv hf1 hp
    obtain ⟨b1, b2⟩ := ih (fun x hx => ht x (by simp [hx])) (fun x hx => hs x (by simp [hx])) (h2 r v h hv hf1) (by rw [feed_width]; exact hv) hf a2
    exact ⟨a1.trans b1, b2⟩

/-! ## What a session writes -/

variable (hnl : ∀ k, .key k ∈ w.input → lookupCommand E k ≠ .clearScreen ∧ lookupCommand E k ≠ .repaintOnNewline)

/-- The first thing a call writes. -/
theorem start_rowed (ho : Ordinary P E w) {c : Int} (hpr : ∀ n, promptWidth E n = c) :
    Wp Any (startSt E w) (Clean P E (w.out ++ [.lit (signBytes E w.promptN)]) (Rowed P E c)) := by
  have hS := ho.sources.src
  have hw2 : promptWidth E w.promptN = c := hpr _
  have ht : Easy P E c (promptSt E w) := hw2 ▸ promptSt_easy ho.modest
  have he : (promptSt E w).out = w.out ++ [.lit (signBytes E w.promptN)] ∧ (promptSt E w).suffix = none := by
    have hroom := ho.room
    unfold promptSt signBytes
    rw [ho.written]
    unfold promptWidth at hroom
    unfold callPromptWriter
    cases hp : E.prompt with
    | none =>
      rw [hp] at hroom
      dsimp only at hroom ⊢
      rw [if_neg (by show ¬ (2 : Int) ≥ w.termWidth - 3; omega)]
      exact ⟨rfl, rfl⟩
    | some p =>
      rw [hp] at hroom
      dsimp only at hroom ⊢
      rw [if_neg (by show ¬ _ ≥ w.termWidth - 3; omega)]
      exact ⟨rfl, rfl⟩
  have hn : Neat P E c (w.out ++ [.lit (signBytes E w.promptN)]) (Rowed P E c) (promptSt E w) :=
    ⟨ht, ⟨⟨[], by simp [he.1], by simp⟩, fun m hm => by unfold St.suffixList at hm; rw [he.2] at hm; cases hm⟩⟩
  have hQ := rowed_inks P E c
  unfold startSt
  refine Wp.seq (insertString_neat hS ho.plain hpr hQ hn _ ho.sources.default) fun p h1 => ?_
  obtain ⟨s1, n⟩ := p
  dsimp only at h1 ⊢
  refine Wp.seq (P := Clean P E (w.out ++ [.lit (signBytes E w.promptN)]) (Rowed P E c)) ?_ fun s2 h2 => Wp.pure (h2.emit hQ.on)
  unfold repaintAfterPrompt
  refine repaint_clean (c := c) hS ho.plain hpr hQ ?_
  have : Neat P E c (w.out ++ [.lit (signBytes E w.promptN)]) (Rowed P E c) (if s1.cursor > s1.len then { s1 with cursor := s1.len } else s1) := by
    split
    · exact h1.of
    · exact h1
  exact this.of

theorem lastLine_rowed {o : List Tok} (hS : Ed.Src P E.logic) (hP : ∀ r, P r → Plain E.cfg r) {c : Int} (hpr : ∀ n, promptWidth E n = c)
    (h : Neat P E c o (Rowed P E c) s) : Wp Any (repaintLastLine E s) (Clean P E o (Rowed P E c)) := by
  have hQ := rowed_inks P E c
  have h1 : Neat P E c o (Rowed P E c) (s.emit .flush) := h.emit hQ.flush
  unfold repaintLastLine
  dsimp only
  cases hp : E.prompt with
  | none => exact repaint_clean (c := c) hS hP hpr hQ (h1.emit (t := .lit [0x0D, 0x3E, 0x20]) (.inr ⟨0, by unfold signAgain; rw [hp]⟩))
  | some p =>
    dsimp only
    refine repaint_clean (c := c) hS hP hpr hQ ?_
    have h2 : Neat P E c o (Rowed P E c) ({ s.emit .flush with promptN := s.promptN + 1 } : St) := h1.of
    exact h2.emit (.inr ⟨s.promptN, by unfold signAgain; rw [hp]⟩)

include hnl in
/-- **Everything behind the first prompt stays in the row.** -/
theorem ordinary_rowed (hb : BuiltinKeys E) (ho : Ordinary P E w) (hx : Plainly P E w) {c : Int} (hpr : ∀ n, promptWidth E n = c) (h : Reachable E w s) :
    Clean P E (w.out ++ [.lit (signBytes E w.promptN)]) (Rowed P E c) s := by
  have hS := ho.sources.src
  have hQ := rowed_inks P E c
  have hw2 : promptWidth E w.promptN = c := hpr _
  induction h with
  | start h => exact (start_rowed ho hpr).ok h
  | @step s s' h hst ih =>
    have ht : Easy P E c s := hw2 ▸ ordinary_easy hb ho.modest h
    have hin := reachable_input hb h
    have hn : Neat P E c (w.out ++ [.lit (signBytes E w.promptN)]) (Rowed P E c) s := ⟨ht, ih⟩
    unfold step at hst
    cases hi : s.input with
    | nil => rw [hi] at hst; cases hst
    | cons ev rest =>
      rw [hi] at hst
      cases ev with
      | err x => cases hst
      | resize n =>
        dsimp only at hst
        obtain ⟨s1, h1, hst⟩ := bind_ok.mp hst
        cases pure_ok.mp hst
        unfold onResize at h1
        have hw := ho.resized n (hin.subset (by rw [hi]; simp))
        rw [hw2] at hw
        refine (lastLine_rowed hS ho.plain hpr ?_).ok h1
        obtain ⟨⟨t, h3, h4⟩, h5⟩ := hn
        exact ⟨⟨⟨t.built, t.line, t.suffix, t.undoes, t.pending, t.whole, t.modHist, t.clip⟩, h3, hw⟩, h5.of⟩
      | key k =>
        dsimp only at hst
        unfold execCmd at hst
        obtain ⟨⟨s1, rc⟩, h1, hst⟩ := bind_ok.mp hst
        have hk : .key k ∈ w.input := hin.subset (by rw [hi]; simp)
        have hsub : ∀ ev, ev ∈ rest → ev ∈ w.input := fun ev hev => hin.subset (by rw [hi]; exact List.mem_cons_of_mem _ hev)
        have ha := ho.sources.allowed (e := (({ s.emit .await with input := rest } : St).emit .cursorOff).ed) hk hsub
        have hn1 : Neat P E c (w.out ++ [.lit (signBytes E w.promptN)]) (Rowed P E c) ({ s.emit .await with input := rest } : St) := hn.emit hQ.await
        have h2 := (call_clean (c := c) hS ho.plain hpr hQ (BuiltinKeys.builtin hb k) ha
          (fun e => ⟨(hx.search k hk e).1, fun q hq => (hx.search k hk e).2 q (hsub _ hq)⟩)
          (fun K e => hx.box k K hk e) (fun hd => by
            rcases hd with hd | hd
            · exact absurd hd (hnl k hk).1
            · exact absurd hd (hnl k hk).2) (hn1.emit hQ.off)).ok h1
        cases rc
        · cases pure_ok.mp hst
          exact h2.emit hQ.on
        · obtain ⟨p, _, hst⟩ := bind_ok.mp hst; cases pure_ok.mp hst
        · obtain ⟨p, _, hst⟩ := bind_ok.mp hst; cases pure_ok.mp hst
        · obtain ⟨p, _, hst⟩ := bind_ok.mp hst; cases pure_ok.mp hst

end Readline
