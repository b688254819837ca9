import Verif.Spec.Poster
import Verif.Props.C25
import Verif.Props.C58
/-!
# Prompts on the terminal
-/
namespace Readline
open Spec

variable {E : Env} {adv : Rune → Int} {W : Int} {C : Cfg}

/-! ## The default prompt -/

theorem sign_newline (v : Vt) (hm : v.mode = .ground) : v.receive adv 0x0A = v.newline := by unfold Vt.receive; rw [hm]; rfl
theorem sign_return (v : Vt) (hm : v.mode = .ground) : v.receive adv 0x0D = { v with col := 0 } := by unfold Vt.receive; rw [hm]; rfl

/-! ## Units of ordinary text -/

theorem plain_position {r : Rune} (h : Plain C r) (pos : Int) : rune2moji C r pos = rune2moji C r 0 := by
  unfold rune2moji
  rw [if_neg h.noTab, if_neg h.noTab]

theorem plain_single {r : Rune} (h : Plain C r) : isJoiner C r = false := by
  cases hj : isJoiner C r with
  | false => rfl
  | true =>
    exfalso
    apply h.alone
    unfold isJoiner at hj
    simp only [Bool.or_eq_true] at hj
    rcases hj with (hj | hj) | hj
    · exact .inl (isZeroWidthJoin_iff.mp hj)
    · unfold isVariationSelectorLike at hj
      rw [Bool.and_eq_true] at hj
      exact .inr (.inl hj)
    · unfold isEmojiModifier at hj
      simp only [Bool.and_eq_true, decide_eq_true_eq] at hj
      exact .inr (.inr hj)

theorem plain_segLoop (rs : List Rune) : ∀ (acc : List Moji) (pos : Int), (∀ r ∈ rs, Plain C r) →
    segLoop C rs false acc pos = acc.reverse ++ plainUnits C rs := by
  induction rs with
  | nil => intro acc pos _; simp [segLoop, plainUnits]
  | cons r rs ih =>
    intro acc pos h
    have hr := h r (by simp)
    rw [segLoop, if_neg (by decide), if_pos (.inr (plain_single hr)), ih _ _ (fun x hx => h x (by simp [hx])), plain_position hr]
    simp [plainUnits]

theorem plain_columnAfter (rs : List Rune) : ∀ c : Int, (∀ r ∈ rs, Plain C r) →
    columnAfter C (plainUnits C rs) c = c + textColumns C rs := by
  induction rs with
  | nil => intro c _; show c = c + 0; omega
  | cons r rs ih =>
    intro c h
    have hr := h r (by simp)
    have hs : startingAt c (rune2moji C r 0) = rune2moji C r 0 := by
      rcases plain_moji hr with ⟨-, e⟩ | ⟨-, -, e | e⟩ | ⟨-, -, e⟩ <;> rw [e] <;> rfl
    show columnAfter C (plainUnits C rs) (c + (startingAt c (rune2moji C r 0)).width C) = c + (plainColumns C r + textColumns C rs)
    rw [hs, (plain_columns hr).2.1, ih _ fun x hx => h x (by simp [hx])]
    omega

theorem plain_width {cs : List Char} (h : ∀ c ∈ cs, Plain C c.toNat) : (mojiWidthAndCount C (utf8 cs)).1 = textColumns C (cs.map Char.toNat) := by
  have h' : ∀ r ∈ cs.map Char.toNat, Plain C r := by
    intro r hr
    obtain ⟨c, hc, rfl⟩ := List.mem_map.mp hr
    exact h c hc
  rw [C06_width, stringToMoji_eq, runesOf_utf8, plain_segLoop _ _ _ h']
  show columnAfter C (plainUnits C (cs.map Char.toNat)) 0 = _
  rw [plain_columnAfter _ _ h', Int.zero_add]

/-! ## Prompts land -/

theorem Spec.Landed.append {a b : Bytes} (ha : Landed adv W a) (hb : Landed adv W b) : Landed adv W (a ++ b) := by
  refine ⟨ValidUtf8.append ha.1 hb.1, fun c hc => ?_⟩
  obtain ⟨c1, h1, h2⟩ := ha.2 c hc
  obtain ⟨c2, h3, h4⟩ := hb.2 c1 h1
  refine ⟨c2, h3, fun v hm hw he => ?_⟩
  obtain ⟨a1, a2⟩ := h2 v hm hw he
  rw [(Reads.valid ha.1).cut]
  refine h4 _ a1 ?_ a2
  rw [← hw]
  exact feed_width v _

theorem landed_nil : Landed adv W [] := by
  refine ⟨ValidUtf8.nil, fun c hc => ⟨c, hc, fun v hm _ he => ?_⟩⟩
  unfold Vt.run
  rw [runesOf_nil]
  exact ⟨hm, he⟩

theorem landed_return : Landed adv W [0x0D] := by
  refine ⟨ascii_valid (by decide), fun c _ => ⟨0, by decide, fun v hm _ _ => ?_⟩⟩
  rw [run_ascii v (by decide)]
  show (v.receive adv 0x0D).mode = _ ∧ (v.receive adv 0x0D).col = _
  rw [sign_return v hm]
  exact ⟨hm, rfl⟩

theorem fine_printable (hA : AgreesPlain C adv) {c : Char} (h : Stroke.Fine C (.letter c)) :
    0x20 ≤ c.toNat ∧ ¬ (0x7F ≤ c.toNat ∧ c.toNat ≤ 0x9F) ∧ adv c.toNat = plainColumns C c.toNat ∧ 1 ≤ plainColumns C c.toNat := by
  obtain ⟨h1, h2, h3⟩ := h
  refine ⟨h2, ?_, hA.plain _ h1 h2 h3, plainColumns_pos h1⟩
  rintro ⟨h4, h5⟩
  have := hA.control _ h4 h5
  have := (h1.columns.resolve_left (by omega)).1
  omega

theorem char_reads (c : Char) : Reads (utf8 [c]) [c.toNat] := by
  rw [encodeChar_eq]
  exact Reads.rune (char_isScalar c)

theorem reads_run {b : Bytes} {rs : List Rune} (h : Reads b rs) (v : Vt) : v.run adv b = v.feed adv rs := by
  have := h.run (adv := adv) v []
  rw [List.append_nil] at this
  rw [this]
  unfold Vt.run
  rw [runesOf_nil]
  rfl

theorem stroke_landed (hA : AgreesPlain C adv) {s : Stroke} (h : s.Fine C) : Landed adv W s.bytes := by
  cases s with
  | colour ps =>
    obtain ⟨rs, h1, h2⟩ := sgr_unmoved (adv := adv) (b := (Stroke.colour ps).bytes) (.inr ⟨ps, rfl, h⟩)
    refine ⟨ascii_valid ?_, fun c hc => ⟨c, hc, fun v hm _ he => ?_⟩⟩
    · intro x hx
      simp only [Stroke.bytes, List.mem_append, List.mem_cons, List.not_mem_nil, or_false] at hx
      rcases hx with ((rfl | rfl) | hx) | rfl
      · decide
      · decide
      · have := (h x hx).2
        exact UInt8.lt_iff_toNat_lt.mpr (by show x.toNat < 0x80; omega)
      · decide
    · rw [reads_run h1]
      exact ⟨(h2 v hm).mode, (h2 v hm).col.trans he⟩
  | letter c =>
    obtain ⟨h1, h2, h3, h4⟩ := fine_printable hA h
    refine ⟨⟨_, rfl⟩, fun k hk => ⟨if k + adv c.toNat ≤ W then k + adv c.toNat else adv c.toNat, by split <;> omega, fun v hm hw he => ?_⟩⟩
    rw [show (Stroke.letter c).bytes = utf8 [c] from rfl, reads_run (char_reads c), feed_cons, feed_nil]
    have e : v.receive adv c.toNat = v.print (adv c.toNat) c.toNat := by
      unfold Vt.receive
      rw [hm]
      dsimp only
      rw [if_neg (by omega), if_neg (by omega), if_neg (by omega), if_neg (by omega), if_neg (by omega)]
    rw [e]
    unfold Vt.print
    rw [hw, he]
    split
    · exact ⟨hm, by show v.col + _ = _; rw [he]⟩
    · refine ⟨(newline_mode v).trans hm, ?_⟩
      show v.newline.col + adv c.toNat = _
      rw [newline_col, Int.zero_add]

theorem lead_landed (l : Approach) : Landed adv W l.bytes := by
  cases l
  · exact landed_nil
  · exact lf_settled
  · exact landed_return

theorem strokes_landed (hA : AgreesPlain C adv) {ss : List Stroke} (h : ∀ s ∈ ss, s.Fine C) : Landed adv W (ss.flatMap Stroke.bytes) := by
  induction ss with
  | nil => exact landed_nil
  | cons s ss ih =>
    rw [List.flatMap_cons]
    exact Landed.append (stroke_landed hA (h s (by simp))) (ih fun x hx => h x (by simp [hx]))

/-! ## What is seen -/

/-- The characters `rs` from column `c` on, all else as before. -/
structure Brushed (C : Cfg) (adv : Rune → Int) (rs : List Rune) (v v' : Vt) : Prop where
  mode : v'.mode = .ground
  width : v'.width = v.width
  height : v'.height = v.height
  row : v'.row = v.row
  col : v'.col = v.col + textColumns C rs
  others : ∀ y, y ≠ v.row → v'.cells y = v.cells y
  before : ∀ x, x < v.col → v'.cells v.row x = v.cells v.row x
  cells : ∀ x, v.col ≤ x → x < v.col + textColumns C rs → v'.cells v.row x = picture C adv rs v.col x

theorem strokes_brushed (hA : AgreesPlain C adv) (ss : List Stroke) : ∀ v : Vt, (∀ s ∈ ss, s.Fine C) → v.mode = .ground → 0 ≤ v.col →
    v.col + textColumns C (ss.flatMap Stroke.seen) ≤ v.width → Brushed C adv (ss.flatMap Stroke.seen) v (v.run adv (ss.flatMap Stroke.bytes)) := by
  induction ss with
  | nil =>
    intro v _ hm _ _
    have e : v.run adv (List.flatMap Stroke.bytes []) = v := by
      show v.run adv [] = v
      unfold Vt.run; rw [runesOf_nil]; rfl
    rw [e]
    exact ⟨hm, rfl, rfl, rfl, by show v.col = v.col + 0; omega, fun _ _ => rfl, fun _ _ => rfl,
      fun x h1 h2 => by have h2 : x < v.col + 0 := h2; omega⟩
  | cons s ss ih =>
    intro v h hm hc hf
    have hl := stroke_landed (W := 0) hA (h s (by simp))
    rw [List.flatMap_cons, List.flatMap_cons, (Reads.valid hl.1).cut]
    rw [List.flatMap_cons] at hf
    have hn := textColumns_nonneg (C := C) (rs := ss.flatMap Stroke.seen) (by
      intro r hr
      obtain ⟨s', hs', hr⟩ := List.mem_flatMap.mp hr
      have := h s' (by simp [hs'])
      cases s' with
      | colour _ => cases hr
      | letter c => rw [List.mem_singleton.mp hr]; exact this.1)
    cases s with
    | colour ps =>
      obtain ⟨rs, h1, h2⟩ := sgr_unmoved (adv := adv) (b := (Stroke.colour ps).bytes) (.inr ⟨ps, rfl, h (.colour ps) (by simp)⟩)
      have hu := h2 v hm
      rw [← reads_run h1] at hu
      obtain ⟨a1, a2, a3, a4, a5, a6, a7, a8⟩ := ih (v.run adv (Stroke.colour ps).bytes) (fun x hx => h x (by simp [hx])) hu.mode (by rw [hu.col]; exact hc)
        (by rw [hu.col, hu.width]; exact hf)
      rw [hu.row, hu.col, hu.cells] at *
      exact ⟨a1, a2.trans hu.width, a3.trans hu.height, a4, a5, a6, a7, a8⟩
    | letter c =>
      obtain ⟨p1, p2, p3, p4⟩ := fine_printable hA (h (.letter c) (by simp))
      have hf : v.col + (plainColumns C c.toNat + textColumns C (ss.flatMap Stroke.seen)) ≤ v.width := hf
      have e : v.run adv (Stroke.letter c).bytes = v.put (adv c.toNat) c.toNat := by
        rw [show (Stroke.letter c).bytes = utf8 [c] from rfl, reads_run (char_reads c), feed_cons, feed_nil,
          receive_print hm p1 p2 (by omega)]
      rw [e, p3]
      have b1 : (v.put (plainColumns C c.toNat) c.toNat).col = v.col + plainColumns C c.toNat := rfl
      obtain ⟨a1, a2, a3, a4, a5, a6, a7, a8⟩ := ih (v.put (plainColumns C c.toNat) c.toNat) (fun x hx => h x (by simp [hx])) hm (by omega)
        (by rw [b1]; show _ ≤ v.width; omega)
      rw [b1] at a5 a7 a8
      have hput : ∀ x, (v.put (plainColumns C c.toNat) c.toNat).cells v.row x =
          if v.col ≤ x ∧ x < v.col + plainColumns C c.toNat then some (c.toNat, x - v.col) else v.cells v.row x := by
        intro x
        show (if v.row = v.row ∧ v.col ≤ x ∧ x < v.col + plainColumns C c.toNat then some (c.toNat, x - v.col) else v.cells v.row x) = _
        by_cases hx : v.col ≤ x ∧ x < v.col + plainColumns C c.toNat
        · rw [if_pos ⟨rfl, hx⟩, if_pos hx]
        · rw [if_neg (fun h => hx h.2), if_neg hx]
      refine ⟨a1, a2, a3, a4, by rw [a5]; show v.col + plainColumns C c.toNat + textColumns C (ss.flatMap Stroke.seen) = v.col + (plainColumns C c.toNat + textColumns C (ss.flatMap Stroke.seen)); omega, fun y hy => (a6 y hy).trans (put_others hy), fun x hx => ?_,
        fun x h1 h2 => ?_⟩
      · rw [show v.row = (v.put (plainColumns C c.toNat) c.toNat).row from rfl, a7 x (by omega)]
        show (v.put (plainColumns C c.toNat) c.toNat).cells v.row x = _
        rw [hput, if_neg (by omega)]
        rfl
      · have h2 : x < v.col + (plainColumns C c.toNat + textColumns C (ss.flatMap Stroke.seen)) := h2
        show _ = if v.col ≤ x ∧ x < v.col + plainColumns C c.toNat then some (seenOf adv c.toNat (x - v.col))
          else picture C adv (ss.flatMap Stroke.seen) (v.col + plainColumns C c.toNat) x
        by_cases hx : x < v.col + plainColumns C c.toNat
        · rw [if_pos ⟨h1, hx⟩]
          have := a7 x hx
          rw [show (v.put (plainColumns C c.toNat) c.toNat).row = v.row from rfl] at this
          rw [this, hput, if_pos ⟨h1, hx⟩]
          unfold seenOf
          rw [if_neg (by omega), if_pos (by omega)]
        · rw [if_neg (by omega)]
          exact a8 x (by omega) (by omega)

theorem strokes_hang (hA : AgreesPlain C adv) {ss : List Stroke} (h : ∀ s ∈ ss, s.Fine C) {v : Vt} (hm : v.mode = .ground) (hc : v.col = 0)
    (hf : textColumns C (ss.flatMap Stroke.seen) ≤ v.width) : Sign.Hangs ⟨false, ss.flatMap Stroke.seen⟩ C adv v (ss.flatMap Stroke.bytes) := by
  obtain ⟨a1, a2, a3, a4, a5, a6, a7, a8⟩ := strokes_brushed hA ss v h hm (by omega) (by omega)
  rw [hc, Int.zero_add] at a5
  refine ⟨a1, a3, a4, a6, a5, fun x h1 h2 => ?_⟩
  have := a8 x (by omega) (by rw [hc, Int.zero_add]; exact h2)
  rw [hc] at this
  exact this

/-! ## The width -/

/-- A stroke as a piece of a prompt. -/
def Spec.Stroke.piece : Stroke → Piece
  | .colour ps => .csi (0x5B :: ps) 0x6D
  | .letter c => .char c

def Spec.Approach.pieces : Approach → List Piece
  | .straight => []
  | .below => [.lineEnd true]
  | .back => [.lineEnd false]

def strokeText (ss : List Stroke) : List Char :=
  ss.flatMap fun | .colour _ => [] | .letter c => [c]

theorem strokeText_seen (ss : List Stroke) : (strokeText ss).map Char.toNat = ss.flatMap Stroke.seen := by
  induction ss with
  | nil => rfl
  | cons s ss ih =>
    unfold strokeText at ih ⊢
    rw [List.flatMap_cons, List.flatMap_cons, List.map_append, ih]
    cases s <;> rfl

theorem poster_bytes (l : Approach) (ss : List Stroke) : poster l ss = promptBytes (l.pieces ++ ss.map Stroke.piece) := by
  unfold poster promptBytes
  rw [List.flatMap_append, List.flatMap_map]
  congr 1
  · cases l <;> rfl
  · congr 1
    funext s
    cases s <;> rfl

theorem poster_line (l : Approach) (ss : List Stroke) : lastLine (l.pieces ++ ss.map Stroke.piece) = strokeText ss := by
  have key : ∀ (ss : List Stroke) (acc : List Char), (ss.map Stroke.piece).foldl Piece.apply acc = acc ++ strokeText ss := by
    intro ss
    induction ss with
    | nil => intro acc; simp [strokeText]
    | cons s ss ih =>
      intro acc
      rw [List.map_cons, List.foldl_cons, ih]
      cases s <;> simp [strokeText, Stroke.piece, Piece.apply]
  unfold lastLine
  rw [List.foldl_append, key]
  cases l <;> rfl

theorem fine_piece {s : Stroke} (h : s.Fine C) : s.piece.Good := by
  cases s with
  | colour ps =>
    refine ⟨.inr (by decide), fun b hb => ?_⟩
    have hb' : b = 0x5B ∨ (0x30 ≤ b.toNat ∧ b.toNat ≤ 0x3B) := by
      rcases List.mem_cons.mp hb with hb | hb
      · exact .inl hb
      · exact .inr (h b hb)
    rcases hb' with rfl | hb'
    · exact ⟨⟨by decide, by decide, by decide⟩, by unfold letter; decide, by decide⟩
    · refine ⟨⟨?_, ?_, ?_⟩, by unfold letter; omega, ?_⟩ <;> rintro rfl <;> simp at hb'
  | letter c =>
    have := h.2.1
    refine ⟨?_, ?_, ?_, ?_⟩ <;> rintro rfl <;> revert this <;> decide

theorem promptText_sign {b : Bytes} (h : PromptText E b) : ∃ n, b = signBytes E n ∨ b = signAgain E n := by
  unfold PromptText at h
  unfold signBytes signAgain
  cases hp : E.prompt with
  | none => rw [hp] at h; exact ⟨0, h⟩
  | some p => rw [hp] at h; exact h

theorem hangs_after {S : Sign} {v u : Vt} {a b : Bytes} (ha : ValidUtf8 a) (e : v.run adv a = u)
    (hu : u.height = (if S.down then v.newline else v).height ∧ u.row = (if S.down then v.newline else v).row ∧
      u.cells = (if S.down then v.newline else v).cells) (h : Sign.Hangs ⟨false, S.shown⟩ C adv u b) : S.Hangs C adv v (a ++ b) := by
  obtain ⟨h1, h2, h3, h4, h5, h6⟩ := h
  obtain ⟨u1, u2, u3⟩ := hu
  unfold Sign.Hangs
  rw [(Reads.valid ha).cut, e]
  refine ⟨h1, h2.trans u1, h3.trans u2, fun y hy => ?_, h5, ?_⟩
  · rw [← u3]; exact h4 y (by rw [show (if (⟨false, S.shown⟩ : Sign).down = true then u.newline else u) = u from rfl, u2]; exact hy)
  · rw [← u2]; exact h6

theorem lead_hangs (hA : AgreesPlain C adv) (l : Approach) {ss : List Stroke} (h : ∀ s ∈ ss, s.Fine C) {v : Vt} (hm : v.mode = .ground)
    (hf : textColumns C (ss.flatMap Stroke.seen) ≤ v.width) (hd : (posterSign l ss).down = true ∨ v.col = 0 ∨ l = .back) :
    (posterSign l ss).Hangs C adv v (poster l ss) := by
  have hl := (lead_landed (adv := adv) (W := 0) l).1
  cases l with
  | straight =>
    have e : v.run adv Approach.straight.bytes = v := by
      show v.run adv [] = v
      unfold Vt.run; rw [runesOf_nil]; rfl
    refine hangs_after hl e ⟨rfl, rfl, rfl⟩ (strokes_hang hA h hm ?_ hf)
    rcases hd with hd | hd | hd
    · cases hd
    · exact hd
    · cases hd
  | below =>
    have e : v.run adv Approach.below.bytes = v.newline := by
      rw [show Approach.below.bytes = [0x0A] from rfl, run_ascii v (by decide)]
      exact sign_newline v hm
    exact hangs_after hl e ⟨rfl, rfl, rfl⟩ (strokes_hang hA h (v := v.newline) ((newline_mode v).trans hm) (newline_col v) (by rw [newline_width]; omega))
  | back =>
    have e : v.run adv Approach.back.bytes = { v with col := 0 } := by
      rw [show Approach.back.bytes = [0x0D] from rfl, run_ascii v (by decide)]
      exact sign_return v hm
    exact hangs_after hl e ⟨rfl, rfl, rfl⟩ (strokes_hang hA h (v := { v with col := 0 }) hm rfl hf)

theorem strokes_sign (hA : AgreesPlain E.cfg adv) {l : Approach} {ss : List Stroke} (h : ∀ s ∈ ss, s.Fine E.cfg)
    (hf : textColumns E.cfg (ss.flatMap Stroke.seen) ≤ W) (h1 : ∀ n, promptWidth E n = textColumns E.cfg (ss.flatMap Stroke.seen))
    (h2 : ∀ n, signBytes E n = poster l ss)
    (h3 : ∀ n, signAgain E n = poster .back ss ∨ signAgain E n = 0x0D :: poster .back ss) : (posterSign l ss).Of E adv W where
  width := h1
  plain r hr := by
    obtain ⟨s, hs, hr⟩ := List.mem_flatMap.mp hr
    have := h s hs
    cases s with
    | colour _ => cases hr
    | letter c => rw [List.mem_singleton.mp hr]; exact ⟨this.1, char_isScalar c⟩
  text b hb := by
    have hp : ∀ l, Landed adv W (poster l ss) := fun l => Landed.append (lead_landed l) (strokes_landed hA h)
    obtain ⟨n, rfl | rfl⟩ := promptText_sign hb
    · rw [h2]; exact hp l
    · rcases h3 n with e | e
      · rw [e]; exact hp _
      · rw [e]; exact Landed.append (a := [0x0D]) landed_return (hp _)
  first n v hm hw hc hd := by
    rw [h2]
    exact lead_hangs hA l h hm (by omega) (hd.imp id .inl)
  again n v hm hw hc := by
    rcases h3 n with e | e
    · rw [e]
      exact lead_hangs hA .back h hm (by omega) (.inr (.inr rfl))
    · rw [e]
      have e' : v.run adv [0x0D] = { v with col := 0 } := by
        rw [run_ascii v (by decide)]
        exact sign_return v hm
      exact hangs_after (a := [0x0D]) (ascii_valid (by decide)) e' ⟨rfl, rfl, rfl⟩
        (lead_hangs hA .back h (v := { v with col := 0 }) hm (by show _ ≤ v.width; omega) (.inr (.inr rfl)))

theorem strokes_noLf {ss : List Stroke} (h : ∀ s ∈ ss, s.Fine C) : ∀ x ∈ ss.flatMap Stroke.bytes, x ≠ 0x0A := by
  intro x hx
  obtain ⟨s, hs, hx⟩ := List.mem_flatMap.mp hx
  have hs := h s hs
  cases s with
  | colour ps =>
    simp only [Stroke.bytes, List.mem_append, List.mem_cons, List.not_mem_nil, or_false] at hx
    rcases hx with ((rfl | rfl) | hx) | rfl
    · decide
    · decide
    · have := (hs x hx).1
      rintro rfl
      simp at this
    · decide
  | letter c =>
    rintro rfl
    have hx : (0x0A : UInt8) ∈ utf8 [c] := hx
    rw [encodeChar_eq] at hx
    have := mem_encodeRune_ascii (by decide) hx
    have h2 := hs.2.1
    rw [this] at h2
    revert h2
    decide

/-- **A coloured prompt** is seen as its characters. -/
theorem poster_sign (hA : AgreesPlain E.cfg adv) {l : Approach} {ss : List Stroke} (hp : E.prompt = some fun _ => poster l ss)
    (h : ∀ s ∈ ss, s.Fine E.cfg) (hf : textColumns E.cfg (ss.flatMap Stroke.seen) ≤ W) : (posterSign l ss).Of E adv W := by
  refine strokes_sign hA h hf (fun n => ?_) (fun n => by unfold signBytes; rw [hp]) fun n => ?_
  · unfold promptWidth
    rw [hp]
    show (mojiWidthAndCount E.cfg (cutEscapeSequenceAndOldLine (poster l ss))).1 = textColumns E.cfg (ss.flatMap Stroke.seen)
    have := C25_partial (ps := l.pieces ++ ss.map Stroke.piece) (t := []) (by
      intro p hp
      rcases List.mem_append.mp hp with hp | hp
      · cases l <;> simp [Approach.pieces] at hp <;> subst hp <;> trivial
      · obtain ⟨s, hs, rfl⟩ := List.mem_map.mp hp
        exact fine_piece (h s hs)) (by
      intro a c e
      exfalso
      have : Piece.back ∈ l.pieces ++ ss.map Stroke.piece := by rw [e]; simp
      rcases List.mem_append.mp this with hp | hp
      · cases l <;> simp [Approach.pieces] at hp
      · obtain ⟨s, hs, e⟩ := List.mem_map.mp hp
        cases s <;> cases e) (.inl rfl)
    rw [List.append_nil, ← poster_bytes, poster_line] at this
    rw [this, plain_width, strokeText_seen]
    intro c hc
    obtain ⟨s, hs, hc⟩ := List.mem_flatMap.mp hc
    have := h s hs
    cases s with
    | colour _ => cases hc
    | letter d => rw [List.mem_singleton.mp hc]; exact this.1
  · have hn := strokes_noLf h
    have hm : (ss.flatMap Stroke.bytes).map (fun b => if b = 0x0A then (0x0D : UInt8) else b) = ss.flatMap Stroke.bytes := by
      refine (List.map_congr_left (g := id) fun x hx => ?_).trans (List.map_id _)
      exact if_neg (hn x hx)
    unfold signAgain
    rw [hp]
    dsimp only
    unfold poster
    rw [List.map_cons, List.map_append, hm]
    cases l
    · exact .inl rfl
    · exact .inr rfl
    · exact .inr rfl

/-- **The default prompt.** -/
theorem usual_sign (hA : AgreesPlain E.cfg adv) (ha : ∀ r, 0x20 ≤ r → r ≤ 0x7E → Plain E.cfg r) (hp : E.prompt = none) (hW : 2 ≤ W) :
    usualSign.Of E adv W := by
  have hone : ∀ r, 0x20 ≤ r → r ≤ 0x7E → plainColumns E.cfg r = 1 := by
    intro r h1 h2
    rw [← hA.plain r (ha _ h1 h2) h1 (by unfold Padded; omega)]
    exact hA.ascii _ h1 h2
  have hc : textColumns E.cfg (List.flatMap Stroke.seen [.letter '>', .letter ' ']) = 2 := by
    show plainColumns E.cfg 0x3E + (plainColumns E.cfg 0x20 + 0) = 2
    rw [hone _ (by decide) (by decide), hone _ (by decide) (by decide)]
    rfl
  have := strokes_sign (E := E) (adv := adv) (W := W) (l := .below) (ss := [.letter '>', .letter ' ']) hA (by
    intro s hs
    simp only [List.mem_cons, List.not_mem_nil, or_false] at hs
    rcases hs with rfl | rfl
    · exact ⟨ha _ (by decide) (by decide), by decide, by unfold Padded; simp⟩
    · exact ⟨ha _ (by decide) (by decide), by decide, by unfold Padded; simp⟩) (by rw [hc]; exact hW)
    (fun n => by unfold promptWidth; rw [hp, hc]) (fun n => by unfold signBytes; rw [hp]; show ([0x0A, 0x3E, 0x20] : Bytes) = _; decide +kernel)
    (fun n => .inl (by unfold signAgain; rw [hp]; show ([0x0D, 0x3E, 0x20] : Bytes) = _; decide +kernel))
  exact this

theorem usual_columns (hA : AgreesPlain C adv) (ha : ∀ r, 0x20 ≤ r → r ≤ 0x7E → Plain C r) : usualSign.columns C = 2 := by
  have hone : ∀ r, 0x20 ≤ r → r ≤ 0x7E → plainColumns C r = 1 := by
    intro r h1 h2
    rw [← hA.plain r (ha _ h1 h2) h1 (by unfold Padded; omega)]
    exact hA.ascii _ h1 h2
  show plainColumns C 0x3E + (plainColumns C 0x20 + 0) = 2
  rw [hone _ (by decide) (by decide), hone _ (by decide) (by decide)]
  rfl

end Readline
