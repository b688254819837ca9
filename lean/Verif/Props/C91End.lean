import Verif.Proof.WipedEnd
import Verif.Props.C91
/-!
# C91: the screen when the call has ended
-/
namespace Readline
open Spec

variable {E : Env} {w : World} {D : Desk} {t : List Char} {n : Nat} {clip : Option (List Char)} {ks : List (List Char)}
  {adv : Rune → Int} {v : Vt} {S : Sign}

/-- From the last wait for a key to the end of the call: the row is kept and left behind. -/
theorem close_step (h : PlainDesk E w D t n clip ks) (hC : Console S E w D t clip ks adv v) (hlf : E.lineFeed = none) {s : St} {r : RLRes}
    (hrl : readLine E w = .ok (s, r)) (he : ∀ e, r.err ≠ .tty e) :
    ∃ z o o' u, Reachable E w z ∧ step E z = .ok (s, some r) ∧ noResize z.input ≠ [] ∧ z.out = w.out ++ o ∧ s.out = w.out ++ o' ∧
      Level (v.run adv (bytesOf E.cfg o)) u ∧ (v.run adv (bytesOf E.cfg o')).cells = u.newline.cells ∧
      (v.run adv (bytesOf E.cfg o')).row = u.newline.row ∧ (v.run adv (bytesOf E.cfg o')).col = 0 ∧
      (r.err = .nil → RowShows S E.cfg adv u u.row (s.termWidth - S.columns E.cfg - 3) (runesOf s.text) s.cursor.toNat) := by
  have hb := h.setting.builtin
  have ho := console_ordinary h hC
  have hS := console_sane hC
  have hroom := hC.room h
  have hwide := hC.wide
  obtain ⟨z, hz, hst⟩ := readLine_reachable hrl
  have hn : noResize z.input ≠ [] := by
    cases step_ends hb hst with
    | enter hi _ => rw [hi]; simp [noResize]
    | interrupt hi _ => rw [hi]; simp [noResize]
    | eof hi _ _ => rw [hi]; simp [noResize]
    | error hi => exact absurd rfl (he _)
    | exhausted hi => exact absurd rfl (he _)
  obtain ⟨ts, e, hts⟩ := ending_from hb ho.scalar (console_plainly h hC).scalar hC.sign.width hz hst he
  obtain ⟨o, e0, ⟨rs, hrs⟩, hm, -, -, hp⟩ := wait_stands h hC hz hn
  obtain ⟨t1, e1, hin⟩ := C27_partial hS hb (ordinary_steady hb ho) hC.wide hC.resized hrl (he _)
  have e2 : s.out = w.out ++ (o ++ ts ++ farewell E.lineFeed r.err) := by rw [e, e0]; simp
  obtain rfl := List.append_cancel_left (e2.symm.trans e1)
  have hhigh : (Row.run E.cfg (blur E adv v.width) (Row.run E.cfg (blur E adv v.width) { col := v.col, cells := fun _ => anything, high := 0 } o) ts).high ≤
      v.width := by
    have h1 := hin { col := v.col, cells := fun _ => anything, high := 0 }
    rw [run_append, run_append] at h1
    refine Int.le_trans (row_high_run (farewell E.lineFeed r.err) _) (Int.le_trans h1 ?_)
    show max (0 : Int) (v.width - 3) ≤ v.width
    omega
  have hts' : ∀ t ∈ ts, Rowed (fun r => Plain E.cfg r ∧ isScalar r = true) E (S.columns E.cfg) t :=
    fun t ht => rowed_weaken (fun r hr => ⟨hr.1.1, hr.2⟩) (hts t ht)
  have hsim : ∀ t ∈ ts, Simple E adv v.width t := fun t ht => (hts' t ht).simple hC.sign (by omega)
  have hwid : (v.run adv (bytesOf E.cfg o)).width = v.width := by rw [reads_run hrs]; exact feed_width ..
  have hm1 := Mirrors.run hC.agrees hC.colourOn hC.colourOff (by omega) hsim hm hwid hhigh
  obtain ⟨a1, a2⟩ := rowed_run hC.agrees hC.colourOn hC.colourOff hC.sign (by omega) hts' hsim hm hwid hhigh hp
  obtain ⟨qs, hqs⟩ := reads_all hC.agrees hC.colourOn hC.colourOff (by omega) hsim
  have hcut : v.run adv (bytesOf E.cfg (o ++ ts ++ farewell E.lineFeed r.err)) =
      ((v.run adv (bytesOf E.cfg o)).run adv (ts.flatMap (Tok.bytes E.cfg))).run adv (bytesOf E.cfg (farewell none r.err)) := by
    rw [hlf]
    unfold bytesOf at hrs ⊢
    rw [List.flatMap_append, List.flatMap_append, List.append_assoc, hrs.cut, hqs.cut]
  obtain ⟨b1, b2, b3, -, -, -⟩ := farewell_run (E := E) (adv := adv) hm1.mode he
  refine ⟨z, o, _, _, hz, hst, hn, e0, e2, a1, by rw [hcut]; exact b1, by rw [hcut]; exact b2, by rw [hcut]; exact b3, fun hnil => ?_⟩
  obtain ⟨hsuf, ⟨y, hy, g1, g2, -⟩, t2, e3, hsh⟩ := entered_shows hS hb (ordinary_steady hb ho) hrl hnil
  obtain rfl : o ++ ts = t2 := by
    have e2 : s.out = w.out ++ (o ++ ts) ++ farewell E.lineFeed r.err := by rw [e2]; simp
    exact List.append_cancel_left (List.append_cancel_right (e2.symm.trans e3))
  have htop : s.topColumn = S.columns E.cfg ∧ ∀ m ∈ s.mojis, ∃ r, (Occurring E D ks r ∧ isScalar r = true) ∧ m = rune2moji E.cfg r 0 := by
    rw [g1, g2]
    refine ⟨?_, fun m hm => ordinary_units hb ho.scalar.sources (fun r hr => hr.1.1) hy m hm⟩
    rw [(ordinary_easy hb ho.modest hy).top]
    exact hC.sign.width _
  have hsh := hsh { col := v.col, cells := fun _ => anything, high := 0 }
  rw [run_append] at hsh
  have hd := hsh.displays hm1 (fun r hr => ⟨hr.1.1, hr.2⟩) htop.2 (by unfold St.suffixList; rw [hsuf]; intro m hm; cases hm)
  have hview : s.viewWidth = s.termWidth - S.columns E.cfg - 3 := by unfold St.viewWidth; rw [htop.1]
  rw [hview, htop.1] at hd
  obtain ⟨-, away, left, right, rest, more, c1, c2, c3, c4, c5, -, c7⟩ := hd
  have hmore : more = [] := by
    rcases c3 with c3 | ⟨-, c3⟩
    · exact c3
    · have : runesOf (lineText s.suffixList) = [] := by unfold St.suffixList; rw [hsuf]; exact runesOf_nil
      rw [this] at c3
      exact List.prefix_nil.mp c3
  subst hmore
  rw [List.append_nil] at c4 c7
  exact ⟨a2.seen, away, left, right, rest, c1, c2, c4, c5, c7⟩

/-- **When the call has ended with a key**: the cursor is below the row of the line; the row shows the line, if one was entered; what stood above it
at the last wait for a key still does; and if the screen had been cleared, every row but that of the line is empty, and that one is at the top. -/
theorem C91_end_partial (h : PlainDesk E w D t n clip ks) (hC : Console S E w D t clip ks adv v) (hlf : E.lineFeed = none) (hv : v.row < v.height)
    (hh : S.drop + 1 < v.height) {s : St} {r : RLRes} (hrl : readLine E w = .ok (s, r)) (he : ∀ e, r.err ≠ .tty e) :
    ∃ z o o', Reachable E w z ∧ step E z = .ok (s, some r) ∧ z.out = w.out ++ o ∧ s.out = w.out ++ o' ∧
      (v.run adv (bytesOf E.cfg o')).col = 0 ∧
      (r.err = .nil → RowShows S E.cfg adv (v.run adv (bytesOf E.cfg o')) ((v.run adv (bytesOf E.cfg o')).row - 1)
        (s.termWidth - S.columns E.cfg - 3) (runesOf s.text) s.cursor.toNat) ∧
      (∀ k, 1 ≤ k → (v.run adv (bytesOf E.cfg o')).cells ((v.run adv (bytesOf E.cfg o')).row - (1 + k)) =
        (v.run adv (bytesOf E.cfg o)).cells ((v.run adv (bytesOf E.cfg o)).row - k)) ∧
      (Wiped E w z → (v.run adv (bytesOf E.cfg o')).row = S.drop + 1 ∧
        ∀ y, y ≠ S.drop → ∀ x, (v.run adv (bytesOf E.cfg o')).cells y x = none) := by
  have hb := h.setting.builtin
  obtain ⟨z, o, o', u, hz, hst, hn, e, e', h1, h2, h3, h4, h5⟩ := close_step h hC hlf hrl he
  obtain ⟨o1, e1, hi⟩ := stays_inside h hC hv (by omega) hz hn
  obtain rfl := List.append_cancel_left (e.symm.trans e1)
  have hu : u.row < u.height := by rw [h1.row, h1.height]; exact hi
  have hl := newline_lifted hu
  refine ⟨z, o, o', hz, hst, e, e', h4, fun hnil => ?_, fun k hk => ?_, fun hw => ?_⟩
  · obtain ⟨c1, away, left, right, rest, c2, c3, c4, c5, c6⟩ := h5 hnil
    have hrow := hl 0 (Int.le_refl 0)
    rw [Int.sub_zero, Int.add_zero] at hrow
    refine ⟨?_, away, left, right, rest, c2, c3, c4, c5, ?_⟩
    · unfold Sign.At at c1 ⊢
      rw [h2, h3, hrow]
      exact c1
    · rw [h2, h3, hrow]
      exact c6
  · rw [h2, h3, hl k (by omega), h1.row, h1.others _ (by omega)]
  · obtain ⟨o1, e1, h6⟩ := wiped_screen hb (console_ordinary h hC) (console_plainly h hC) hC.agrees (width_nonneg hC.width hC.zwj) hC.colourOn
      hC.colourOff hC.sign hC.ground hC.col hC.wide hC.resized (by omega) hw hn
    obtain rfl := List.append_cancel_left (e.symm.trans e1)
    obtain ⟨t1, e1, ⟨rs, hrs⟩, -⟩ := wait_stands h hC hz hn
    obtain rfl := List.append_cancel_left (e.symm.trans e1)
    have hht : u.height = v.height := by rw [h1.height, reads_run hrs, feed_height]
    have hnl : u.newline = { u with row := u.row + 1, col := 0 } := by
      unfold Vt.newline
      rw [if_pos (by rw [h1.row, h6.1, hht]; exact hh)]
    rw [h2, h3, hnl]
    refine ⟨by show u.row + 1 = _; rw [h1.row, h6.1], fun y hy x => ?_⟩
    show u.cells y x = none
    rw [h1.others y (by rw [h6.1]; exact hy)]
    exact h6.2 y hy x

section
open Example

/-- `m`, `x`, Ctrl-L, Backspace, `a`, then Enter, on a screen of 25 rows: the call ends as the theorem wants it, after the screen was cleared. -/
example : ∃ s r z, readLine shownEnv { input := wipeKeys.map fun k => .key (utf8 k) } = .ok (s, r) ∧ r.err = .nil ∧ r.text = b "ma" ∧
    Wiped shownEnv { input := wipeKeys.map fun k => .key (utf8 k) } z ∧ z.input.length = 1 ∧ shownEnv.lineFeed = none ∧
    usualSign.drop + 1 < screen.height ∧ (screen.run (plainColumns table) (bytesOf table s.out)).row = 2 := by
  have h : (match readLine shownEnv { input := wipeKeys.map fun k => .key (utf8 k) } with
    | .ok (s, r) => decide (r.text = b "ma" ∧ (screen.run (plainColumns table) (bytesOf table s.out)).row = 2) && (match r.err with | .nil => true | _ => false)
    | .error _ => false) = true := by decide +kernel
  have h' : (wipedAfter shownEnv { input := wipeKeys.map fun k => .key (utf8 k) } 2 2).any (fun s => decide (s.input.length = 1)) = true := by
    decide +kernel
  cases hz : wipedAfter shownEnv { input := wipeKeys.map fun k => .key (utf8 k) } 2 2 with
  | none => rw [hz] at h'; cases h'
  | some z =>
    rw [hz] at h'
    split at h
    · rename_i s r hs
      obtain ⟨h1, h2⟩ := Bool.and_eq_true_iff.mp h
      obtain ⟨h3, h4⟩ := of_decide_eq_true h1
      refine ⟨s, r, z, hs, ?_, h3, wipedAfter_ok hz, of_decide_eq_true h', rfl, by decide, h4⟩
      split at h2
      · assumption
      · cases h2
    · cases h

end

end Readline
