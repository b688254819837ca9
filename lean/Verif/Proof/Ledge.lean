import Verif.Spec.Ledge
import Verif.Proof.Scroll
/-!
# Prompts of two rows

Everything behind the first row of the prompt stays in the row below it, also when the prompt is written again: then both parts go to the same row, one
over the other.
-/
namespace Readline
open Spec

variable {E : Env} {w : World} {D : Desk} {t : List Char} {n : Nat} {clip : Option (List Char)} {ks : List (List Char)} {adv : Rune → Int} {v : Vt}
  {C : Cfg} {W : Int} {top mark : List Stroke}

/-- The two parts of the prompt with another byte between them. -/
def joined (b : UInt8) (top mark : List Stroke) : Bytes := top.flatMap Stroke.bytes ++ [b] ++ mark.flatMap Stroke.bytes

/-- The editor with both parts in one row. -/
def flat (E : Env) (top mark : List Stroke) : Env := { E with prompt := some fun _ => joined 0x0D top mark }

theorem pieces_bytes (ss : List Stroke) : promptBytes (ss.map Stroke.piece) = ss.flatMap Stroke.bytes := (poster_bytes .straight ss).symm

theorem joined_width (lf : Bool) (ht : ∀ s ∈ top, s.Fine C) (hm : ∀ s ∈ mark, s.Fine C) :
    (mojiWidthAndCount C (cutEscapeSequenceAndOldLine (joined (if lf then 0x0A else 0x0D) top mark))).1 = textColumns C (mark.flatMap Stroke.seen) := by
  have := C25_partial (ps := top.map Stroke.piece ++ [.lineEnd lf] ++ mark.map Stroke.piece) (t := []) (by
    intro p hp
    rcases List.mem_append.mp hp with hp | hp
    · rcases List.mem_append.mp hp with hp | hp
      · obtain ⟨s, hs, rfl⟩ := List.mem_map.mp hp
        exact fine_piece (ht s hs)
      · rw [List.mem_singleton.mp hp]; trivial
    · obtain ⟨s, hs, rfl⟩ := List.mem_map.mp hp
      exact fine_piece (hm s hs)) (by
    intro a c e
    exfalso
    have : Piece.back ∈ top.map Stroke.piece ++ [.lineEnd lf] ++ mark.map Stroke.piece := by rw [e]; simp
    rcases List.mem_append.mp this with hp | hp
    · rcases List.mem_append.mp hp with hp | hp
      · obtain ⟨s, hs, e⟩ := List.mem_map.mp hp
        cases s <;> cases e
      · cases List.mem_singleton.mp hp
    · obtain ⟨s, hs, e⟩ := List.mem_map.mp hp
      cases s <;> cases e) (.inl rfl)
  have hbytes : promptBytes (top.map Stroke.piece ++ [.lineEnd lf] ++ mark.map Stroke.piece) = joined (if lf then 0x0A else 0x0D) top mark := by
    have e : ∀ a b, promptBytes (a ++ b) = promptBytes a ++ promptBytes b := fun a b => List.flatMap_append
    rw [e, e, pieces_bytes, pieces_bytes]
    unfold joined
    cases lf <;> rfl
  have hline : lastLine (top.map Stroke.piece ++ [.lineEnd lf] ++ mark.map Stroke.piece) = strokeText mark := by
    rw [← poster_line .straight mark]
    unfold lastLine
    rw [List.foldl_append, List.foldl_append]
    rfl
  rw [List.append_nil, hbytes, hline] at this
  rw [this, plain_width, strokeText_seen]
  intro c hc
  obtain ⟨s, hs, hc⟩ := List.mem_flatMap.mp hc
  have := hm s hs
  cases s with
  | colour _ => cases hc
  | letter d => rw [List.mem_singleton.mp hc]; exact this.1

theorem ledged_width (ht : ∀ s ∈ top, s.Fine E.cfg) (hm : ∀ s ∈ mark, s.Fine E.cfg) (n : Nat) :
    promptWidth (ledged E top mark) n = (markSign mark).columns E.cfg := joined_width true ht hm

theorem flat_width (ht : ∀ s ∈ top, s.Fine E.cfg) (hm : ∀ s ∈ mark, s.Fine E.cfg) (n : Nat) :
    promptWidth (flat E top mark) n = (markSign mark).columns E.cfg := joined_width false ht hm

/-- Written again, there is no difference. -/
theorem joined_again (b : UInt8) (hb : b = 0x0A ∨ b = 0x0D) (ht : ∀ s ∈ top, s.Fine C) (hm : ∀ s ∈ mark, s.Fine C) :
    (0x0D :: joined b top mark).map (fun b => if b = 0x0A then (0x0D : UInt8) else b) = 0x0D :: joined 0x0D top mark := by
  have hn : ∀ ss : List Stroke, (∀ s ∈ ss, s.Fine C) →
      (ss.flatMap Stroke.bytes).map (fun b => if b = 0x0A then (0x0D : UInt8) else b) = ss.flatMap Stroke.bytes := fun ss h =>
    (List.map_congr_left (g := id) fun x hx => if_neg (strokes_noLf h x hx)).trans (List.map_id _)
  unfold joined
  rw [List.map_cons, List.map_append, List.map_append, hn _ ht, hn _ hm]
  rcases hb with rfl | rfl <;> rfl

theorem ledged_again (ht : ∀ s ∈ top, s.Fine C) (hm : ∀ s ∈ mark, s.Fine C) (n : Nat) :
    signAgain (ledged E top mark) n = 0x0D :: joined 0x0D top mark := joined_again 0x0A (.inl rfl) ht hm

theorem flat_again (ht : ∀ s ∈ top, s.Fine C) (hm : ∀ s ∈ mark, s.Fine C) (n : Nat) :
    signAgain (flat E top mark) n = 0x0D :: joined 0x0D top mark := joined_again 0x0D (.inr rfl) ht hm

/-! ## The terminal -/

theorem Spec.Stroke.valid (hA : AgreesPlain C adv) {ss : List Stroke} (h : ∀ s ∈ ss, s.Fine C) : ValidUtf8 (ss.flatMap Stroke.bytes) :=
  (strokes_landed (adv := adv) (W := 0) hA h).1

/-- A prompt that hangs behind something that stays in the row. -/
theorem hangs_level {S : Sign} {v u : Vt} {a b : Bytes} (hS : S.down = false) (ha : ValidUtf8 a) (e : v.run adv a = u) (hl : Level v u)
    (h : S.Hangs C adv u b) : S.Hangs C adv v (a ++ b) := by
  unfold Sign.Hangs at h ⊢
  rw [hS] at h ⊢
  obtain ⟨h1, h2, h3, h4, h5, h6⟩ := h
  rw [(Reads.valid ha).cut, e]
  refine ⟨h1, h2.trans hl.height, h3.trans hl.row, fun y hy => (h4 y ?_).trans (hl.others y hy), h5, ?_⟩
  · show y ≠ u.row
    rw [hl.row]; exact hy
  · show (S.At C adv _ v.row)
    rw [← hl.row]; exact h6

/-- The first row. -/
theorem strokes_level (hA : AgreesPlain C adv) (h : ∀ s ∈ top, s.Fine C) (hm : v.mode = .ground) (hc : v.col = 0)
    (hf : textColumns C (top.flatMap Stroke.seen) ≤ v.width) :
    (v.run adv (top.flatMap Stroke.bytes)).mode = .ground ∧ Level v (v.run adv (top.flatMap Stroke.bytes)) ∧
      ∀ x, 0 ≤ x → x < textColumns C (top.flatMap Stroke.seen) →
        (v.run adv (top.flatMap Stroke.bytes)).cells v.row x = picture C adv (top.flatMap Stroke.seen) 0 x := by
  obtain ⟨h1, h2, h3, h4, -, h6⟩ := strokes_hang hA h hm hc hf
  exact ⟨h1, ⟨feed_width _ _, h2, h3, h4⟩, h6⟩

theorem strokes_right (hA : AgreesPlain C adv) : ∀ (ss : List Stroke) (v : Vt), (∀ s ∈ ss, s.Fine C) → v.mode = .ground → 0 ≤ v.col →
    v.col + textColumns C (ss.flatMap Stroke.seen) ≤ v.width → ∀ x, v.col + textColumns C (ss.flatMap Stroke.seen) ≤ x →
    (v.run adv (ss.flatMap Stroke.bytes)).cells v.row x = v.cells v.row x := by
  intro ss
  induction ss with
  | nil =>
    intro v _ _ _ _ x _
    show (v.run adv []).cells v.row x = _
    unfold Vt.run
    rw [runesOf_nil]
    rfl
  | cons s ss ih =>
    intro v h hm hc hf x hx
    rw [List.flatMap_cons, (Reads.valid (stroke_landed (adv := adv) (W := 0) hA (h s (by simp))).1).cut]
    cases s with
    | colour ps =>
      obtain ⟨qs, h1, h2⟩ := sgr_unmoved (adv := adv) (b := (Stroke.colour ps).bytes) (.inr ⟨ps, rfl, h (.colour ps) (by simp)⟩)
      have hu := h2 v hm
      rw [← reads_run h1] at hu
      have := ih (v.run adv (Stroke.colour ps).bytes) (fun x hx => h x (by simp [hx])) hu.mode (by rw [hu.col]; exact hc)
        (by rw [hu.col, hu.width]; exact hf) x (by rw [hu.col]; exact hx)
      rw [hu.row, hu.cells] at this
      exact this
    | letter c =>
      obtain ⟨p1, p2, p3, p4⟩ := fine_printable hA (h (.letter c) (by simp))
      have hf : v.col + (plainColumns C c.toNat + textColumns C (ss.flatMap Stroke.seen)) ≤ v.width := hf
      have hx : v.col + (plainColumns C c.toNat + textColumns C (ss.flatMap Stroke.seen)) ≤ x := hx
      have h0 : 0 ≤ textColumns C (ss.flatMap Stroke.seen) := textColumns_nonneg fun r hr => by
        obtain ⟨s, hs, hr⟩ := List.mem_flatMap.mp hr
        have := h s (by simp [hs])
        cases s with
        | colour _ => cases hr
        | letter c => rw [List.mem_singleton.mp hr]; exact this.1
      have e : v.run adv (Stroke.letter c).bytes = v.put (adv c.toNat) c.toNat := by
        rw [show (Stroke.letter c).bytes = utf8 [c] from rfl, reads_run (char_reads c), feed_cons, feed_nil,
          receive_print hm p1 p2 (by omega)]
      rw [e, p3]
      have b1 : (v.put (plainColumns C c.toNat) c.toNat).col = v.col + plainColumns C c.toNat := rfl
      have := ih (v.put (plainColumns C c.toNat) c.toNat) (fun x hx => h x (by simp [hx])) hm (by omega)
        (by rw [b1]; show _ ≤ v.width; omega) x (by rw [b1]; omega)
      rw [show v.row = (v.put (plainColumns C c.toNat) c.toNat).row from rfl, this]
      show (if v.row = v.row ∧ v.col ≤ x ∧ x < v.col + plainColumns C c.toNat then some (c.toNat, x - v.col) else v.cells v.row x) = v.cells v.row x
      rw [if_neg (by omega)]

theorem joined_back_hangs (hA : AgreesPlain C adv) (ht : ∀ s ∈ top, s.Fine C) (hm : ∀ s ∈ mark, s.Fine C) (hg : v.mode = .ground) (hc : v.col = 0)
    (hft : textColumns C (top.flatMap Stroke.seen) ≤ v.width) (hfm : textColumns C (mark.flatMap Stroke.seen) ≤ v.width) :
    (markSign mark).Hangs C adv v (joined 0x0D top mark) := by
  obtain ⟨h1, h2, -⟩ := strokes_level hA ht hg hc hft
  unfold joined
  rw [List.append_assoc]
  exact hangs_level rfl (Stroke.valid hA ht) rfl h2 (lead_hangs (v := v.run adv (top.flatMap Stroke.bytes)) hA .back hm h1 (by rw [h2.width]; exact hfm)
    (.inr (.inr rfl)))

theorem joined_landed (hA : AgreesPlain C adv) (b : UInt8) (hb : b = 0x0A ∨ b = 0x0D) (ht : ∀ s ∈ top, s.Fine C) (hm : ∀ s ∈ mark, s.Fine C) :
    Landed adv W (joined b top mark) := by
  refine Landed.append (Landed.append (strokes_landed hA ht) ?_) (strokes_landed hA hm)
  rcases hb with rfl | rfl
  · exact lf_settled
  · exact landed_return

/-- **Both parts in one row.** -/
theorem flat_sign (hA : AgreesPlain E.cfg adv) (ht : ∀ s ∈ top, s.Fine E.cfg) (hm : ∀ s ∈ mark, s.Fine E.cfg)
    (hft : textColumns E.cfg (top.flatMap Stroke.seen) ≤ W) (hfm : textColumns E.cfg (mark.flatMap Stroke.seen) ≤ W) :
    (markSign mark).Of (flat E top mark) adv W where
  width := flat_width ht hm
  plain r hr := by
    obtain ⟨s, hs, hr⟩ := List.mem_flatMap.mp hr
    have := hm s hs
    cases s with
    | colour _ => cases hr
    | letter c => rw [List.mem_singleton.mp hr]; exact ⟨this.1, char_isScalar c⟩
  text b hb := by
    obtain ⟨n, rfl | rfl⟩ := promptText_sign hb
    · exact joined_landed hA 0x0D (.inr rfl) ht hm
    · rw [flat_again ht hm]
      exact Landed.append (a := [0x0D]) landed_return (joined_landed hA 0x0D (.inr rfl) ht hm)
  first n v hg hw hc hd := by
    subst hw
    exact joined_back_hangs hA ht hm hg (hd.resolve_left (fun h => by cases h)) hft hfm
  again n v hg hw hc := by
    subst hw
    rw [flat_again ht hm]
    have e' : v.run adv [0x0D] = { v with col := 0 } := by
      rw [run_ascii v (by decide)]
      exact sign_return v hg
    exact hangs_level (S := markSign mark) (a := [0x0D]) rfl (ascii_valid (by decide)) e' ⟨rfl, rfl, rfl, fun _ _ => rfl⟩
      (joined_back_hangs hA ht hm (v := { v with col := 0 }) hg rfl hft hfm)

/-- The prompt of two rows, whatever was there before. -/
theorem ledge_announces (hA : AgreesPlain E.cfg adv) (ht : ∀ s ∈ top, s.Fine E.cfg) (hm : ∀ s ∈ mark, s.Fine E.cfg)
    (hft : textColumns E.cfg (top.flatMap Stroke.seen) ≤ W) (hfm : textColumns E.cfg (mark.flatMap Stroke.seen) ≤ W) {b : Bytes}
    (hb : PromptText (ledged E top mark) b) : Announces E.cfg adv W b (mark.flatMap Stroke.seen) := by
  obtain ⟨n, rfl | rfl⟩ := promptText_sign hb
  · refine ⟨(joined_landed (adv := adv) (W := 0) hA 0x0A (.inl rfl) ht hm).1, fun v hg hw hc => ?_⟩
    obtain ⟨c', hc', hl⟩ := (strokes_landed (adv := adv) (W := v.width) hA ht).2 v.col hc
    obtain ⟨l1, l2⟩ := hl v hg rfl rfl
    have e : v.run adv (signBytes (ledged E top mark) n) = (v.run adv (top.flatMap Stroke.bytes)).run adv (poster .below mark) := by
      show v.run adv (top.flatMap Stroke.bytes ++ [0x0A] ++ mark.flatMap Stroke.bytes) = _
      rw [List.append_assoc, (Reads.valid (Stroke.valid hA ht)).cut]
      rfl
    have hw' : (v.run adv (top.flatMap Stroke.bytes)).width = v.width := feed_width _ _
    obtain ⟨h1, -, h3, -, h5, h6⟩ := lead_hangs hA .below hm l1 (by rw [hw', hw]; exact hfm) (.inl rfl)
    rw [e]
    exact ⟨h1, h5, by rw [h3]; exact h6⟩
  · rw [ledged_again ht hm]
    refine ⟨(Landed.append (a := [0x0D]) landed_return (joined_landed (adv := adv) (W := 0) hA 0x0D (.inr rfl) ht hm)).1, fun v hg hw hc => ?_⟩
    have := (flat_sign hA ht hm hft hfm).again 0 v hg hw hc
    rw [flat_again ht hm] at this
    obtain ⟨h1, -, h3, -, h5, h6⟩ := this
    exact ⟨h1, h5, by rw [h3]; exact h6⟩

/-- **The rows during a call** with a prompt of two rows. -/
theorem ledge_rows (hA : AgreesPlain E.cfg adv) (hc1 : Sgr E.predictColor.1) (hc2 : Sgr E.predictColor.2)
    (ht : ∀ s ∈ top, s.Fine E.cfg) (hm : ∀ s ∈ mark, s.Fine E.cfg)
    (hft : textColumns E.cfg (top.flatMap Stroke.seen) ≤ v.width) (hfm : (markSign mark).columns E.cfg < v.width) {n : Nat} {ts : List Tok}
    (hts : ∀ t ∈ ts, Rowed (fun r => Plain E.cfg r ∧ isScalar r = true) (ledged E top mark) ((markSign mark).columns E.cfg) t)
    (hg : v.mode = .ground) (hv : v.col = 0)
    (hf : (Row.run E.cfg (blur E adv v.width) { col := v.col, cells := fun _ => anything, high := 0 }
      (.lit (signBytes (ledged E top mark) n) :: ts)).high ≤ v.width) :
    Level (v.run adv (top.flatMap Stroke.bytes)).newline (v.run adv (bytesOf E.cfg (.lit (signBytes (ledged E top mark) n) :: ts))) ∧
      Prompted (markSign mark) E.cfg adv (v.run adv (bytesOf E.cfg (.lit (signBytes (ledged E top mark) n) :: ts))) ∧
      Mirrors adv (Row.run E.cfg (blur E adv v.width) { col := v.col, cells := fun _ => anything, high := 0 }
          (.lit (signBytes (ledged E top mark) n) :: ts)) (v.run adv (bytesOf E.cfg (.lit (signBytes (ledged E top mark) n) :: ts))) ∧
      ∃ rs, Reads (bytesOf E.cfg (.lit (signBytes (ledged E top mark) n) :: ts)) rs := by
  have hW0 : 0 < v.width := by
    have := (flat_sign (W := v.width) hA ht hm hft (Int.le_of_lt hfm)).nonneg
    have hfm : (markSign mark).columns (flat E top mark).cfg < v.width := hfm
    omega
  have hS := flat_sign (W := v.width) hA ht hm hft (Int.le_of_lt hfm)
  have hts3 : ∀ t ∈ ts, Rowed (fun r => Plain E.cfg r ∧ isScalar r = true) (flat E top mark) ((markSign mark).columns E.cfg) t := by
    intro t h
    rcases hts t h with h | ⟨n, rfl⟩
    · left
      cases t <;> exact h
    · exact .inr ⟨n, by rw [ledged_again ht hm, flat_again ht hm]⟩
  have hs : ∀ t ∈ ts, Simple (flat E top mark) adv v.width t := fun t h => (hts3 t h).simple hS hfm
  have hs0 : Simple (flat E top mark) adv v.width (.lit (signBytes (ledged E top mark) n)) := .inr (joined_landed hA 0x0A (.inl rfl) ht hm)
  have hrow : Mirrors adv { col := v.col, cells := fun _ => anything, high := 0 } v := ⟨hg, rfl, by show 0 ≤ v.col; omega, fun _ => Or.inl rfl⟩
  have hsa : ∀ t ∈ .lit (signBytes (ledged E top mark) n) :: ts, Simple (flat E top mark) adv v.width t := by
    intro t h
    rcases List.mem_cons.mp h with rfl | h
    · exact hs0
    · exact hs t h
  have hmir := Mirrors.run (E := flat E top mark) hA hc1 hc2 hW0 hsa hrow rfl hf
  obtain ⟨rs, h1, h2⟩ := Mirrors.receive (E := flat E top mark) hA hc1 hc2 hW0 hs0
  obtain ⟨l1, l2, -⟩ := strokes_level hA ht hg hv hft
  have hb := hangs_prompted (lead_hangs (v := v.run adv (top.flatMap Stroke.bytes)) hA .below hm l1 (by rw [l2.width]; exact Int.le_of_lt hfm) (.inl rfl))
  have e : v.run adv (signBytes (ledged E top mark) n) = (v.run adv (top.flatMap Stroke.bytes)).run adv (poster .below mark) := by
    show v.run adv (top.flatMap Stroke.bytes ++ [0x0A] ++ mark.flatMap Stroke.bytes) = _
    rw [List.append_assoc, (Reads.valid (Stroke.valid hA ht)).cut]
    rfl
  have e1 : v.run adv (signBytes (ledged E top mark) n) = v.feed adv rs := reads_run h1 v
  rw [← e, e1] at hb
  obtain ⟨a1, a2, a3⟩ := hb
  have hf : (Row.run E.cfg (blur (flat E top mark) adv v.width) (Row.receive E.cfg (blur (flat E top mark) adv v.width)
      { col := v.col, cells := fun _ => anything, high := 0 } (.lit (signBytes (ledged E top mark) n))) ts).high ≤ v.width := hf
  have hf1 := Int.le_trans (row_high_run (E := flat E top mark) ts _) hf
  obtain ⟨b1, b2⟩ := rowed_run (E := flat E top mark) (S := markSign mark) hA hc1 hc2 hS hfm hts3 hs (h2 _ v hrow rfl hf1) (feed_width _ _) hf ⟨a2, a3⟩
  have hrun : v.run adv (bytesOf E.cfg (.lit (signBytes (ledged E top mark) n) :: ts)) = (v.feed adv rs).run adv (ts.flatMap (Tok.bytes E.cfg)) := by
    unfold bytesOf
    rw [List.flatMap_cons]
    exact h1.run v _
  refine ⟨hrun ▸ a1.trans b1, hrun ▸ b2, hmir, reads_all (E := flat E top mark) hA hc1 hc2 hW0 hsa⟩

/-- The desk with the prompt of two rows. -/
theorem ledge_desk (ht : ∀ s ∈ top, s.Fine E.cfg) (hm : ∀ s ∈ mark, s.Fine E.cfg) (h : PlainDesk (markOnly E mark) w D t n clip ks)
    (hw : promptWidth (markOnly E mark) w.promptN = (markSign mark).columns E.cfg) : PlainDesk (ledged E top mark) w D t n clip ks :=
  { h with
    top := h.top.imp id fun e => by rw [ledged_width ht hm, ← hw]; exact e
    prompt := fun n => by rw [ledged_width ht hm, ledged_width ht hm]
    room := by have := h.room; rw [hw] at this; rw [ledged_width ht hm]; exact this
    resized := fun v hv => by have := h.resized v hv; rw [hw] at this; rw [ledged_width ht hm]; exact this }

theorem level_topped (hA : AgreesPlain C adv) (ht : ∀ s ∈ top, s.Fine C) (hg : v.mode = .ground) (hv : v.col = 0) (hi : v.row < v.height)
    (hft : textColumns C (top.flatMap Stroke.seen) ≤ v.width) {u : Vt} (hl : Level (v.run adv (top.flatMap Stroke.bytes)).newline u) :
    Topped C adv (top.flatMap Stroke.seen) v u := by
  obtain ⟨-, h2, h3⟩ := strokes_level hA ht hg hv hft
  have h4 := strokes_right hA top v ht hg (by omega) (by omega)
  have hL : Lifted (v.run adv (top.flatMap Stroke.bytes)) u 1 := (newline_lifted (by rw [h2.row, h2.height]; exact hi)).level hl (by decide)
  have e0 : u.cells (u.row - 1) = (v.run adv (top.flatMap Stroke.bytes)).cells v.row := by
    have := hL 0 (by decide)
    rw [h2.row] at this
    simpa using this
  refine ⟨fun x h h' => by rw [e0]; exact h3 x h h', fun x h => by rw [e0]; exact h4 x (by omega), fun k hk => ?_⟩
  have := hL k (by omega)
  rw [this, h2.row]
  exact h2.others _ (by omega)

end Readline
