import Verif.Proof.Rows
/-!
# The rows a call leaves behind
-/
namespace Readline
open Spec

variable {E : Env} {w : World} {s : St} {adv : Rune → Int} {P : Nat → Prop} {lit : Bytes → Row → Row}

/-! ## The end of a call -/

/-- After Enter the row shows the line without a prediction. -/
theorem entered_shows (hS : Sane E lit) (hb : BuiltinKeys E) (hw : Steady E w) {r : RLRes} (h : readLine E w = .ok (s, r))
    (hr : r.err = .nil) :
    s.suffix = none ∧ (∃ u, Reachable E w u ∧ s.topColumn = u.topColumn ∧ s.mojis = u.mojis ∧ s.termWidth = u.termWidth) ∧
      ∃ t, s.out = w.out ++ t ++ farewell E.lineFeed r.err ∧ ∀ row, Shows E s (Row.run E.cfg lit row t) := by
  obtain ⟨u, k, rest, hu, hi, he, ⟨t0, e0, hr0⟩, v, rc, hc, s1, h1, rfl⟩ :=
    ending_row hS hb hw h (by intro e; rw [hr]; simp)
  obtain ⟨k', rest', hi', hc', ht⟩ := accept_ends he hr
  rw [hi] at hi'
  injection hi' with a1 a2
  injection a1 with a1
  subst a1 a2
  rw [hc'] at hc
  injection hc with hc
  obtain ⟨rfl, -⟩ := Prod.ext_iff.mp hc
  have hshow : ∀ row, Shows E ({ u.emit .await with input := rest }.emit .cursorOff) (Row.run E.cfg lit row (t0 ++ [.await, .cursorOff])) := by
    intro row
    rw [run_append]
    exact (hr0 row).congr
  cases hs : u.suffix with
  | none =>
    have h1 : (Except.ok (({ u.emit .await with input := rest }.emit .cursorOff).emit .cursorOn) : M St) = .ok s1 := by
      have hs' : ({ u.emit .await with input := rest }.emit .cursorOff : St).suffix = none := hs
      rw [hs'] at h1; exact h1
    injection h1 with h1
    subst h1
    refine ⟨hs, ⟨u, hu, rfl, rfl, rfl⟩, t0 ++ [.await, .cursorOff] ++ [.cursorOn], by simp [St.emit, e0], fun row => ?_⟩
    rw [run_append]
    exact (hshow row).congr
  | some y =>
    have h1 : repaintNoSuffix E { ({ u.emit .await with input := rest }.emit .cursorOff).emit .cursorOn with suffix := none } = .ok s1 := by
      have hs' : ({ u.emit .await with input := rest }.emit .cursorOff : St).suffix = some y := hs
      rw [hs'] at h1; exact h1
    have ha := reachable_aligned hb hu
    have hV : InView E ({ ({ u.emit .await with input := rest }.emit .cursorOff).emit .cursorOn with suffix := none } : St) := by
      have := (hr0 ⟨0, fun _ => none, 0⟩).inView hS
      exact ⟨this.low, this.mid, this.high, this.fits⟩
    obtain ⟨-, t, e, hl⟩ := repaintNoSuffix_paints (lit := lit) (s1 := { ({ u.emit .await with input := rest }.emit .cursorOff).emit .cursorOn with suffix := none }) hS ha hV h1
    obtain ⟨hm, b, o, h3⟩ := repaintNoSuffix_mojis (s1 := { ({ u.emit .await with input := rest }.emit .cursorOff).emit .cursorOn with suffix := none }) ha h1
    refine ⟨by rw [h3], ⟨u, hu, by rw [h3]; rfl, hm, by rw [h3]; rfl⟩, t0 ++ [.await, .cursorOff, .cursorOn] ++ t, ?_, fun row => ?_⟩
    · show s1.out ++ _ = _
      rw [e]; simp [St.emit, e0]
    · rw [run_append]
      exact (hl _).1.congr

/-- What a call that ends with a key has written. -/
theorem ending_rowed (hnl : ∀ k, .key k ∈ w.input → lookupCommand E k ≠ .clearScreen ∧ lookupCommand E k ≠ .repaintOnNewline)
    (hb : BuiltinKeys E) (ho : Ordinary P E w) (hx : Plainly P E w) {c : Int} (hpr : ∀ n, promptWidth E n = c) {r : RLRes}
    (h : readLine E w = .ok (s, r)) (hr : ∀ e, r.err ≠ .tty e) :
    ∃ ts, s.out = w.out ++ .lit (signBytes E w.promptN) :: ts ++ farewell E.lineFeed r.err ∧ ∀ t ∈ ts, Rowed P E c t := by
  obtain ⟨u, k, rest, hu, hi, he, v, rc, hc, s1, h1, rfl⟩ := ending_at hb h hr
  have hS := ho.sources.src
  have hQ := rowed_inks P E c
  have hw2 : promptWidth E w.promptN = c := hpr _
  have ht : Easy P E c u := hw2 ▸ ordinary_easy hb ho.modest hu
  have hn : Neat P E c (w.out ++ [.lit (signBytes E w.promptN)]) (Rowed P E c) u := ⟨ht, ordinary_rowed hnl hb ho hx hpr hu⟩
  have hn1 : Neat P E c (w.out ++ [.lit (signBytes E w.promptN)]) (Rowed P E c) ({ u.emit .await with input := rest } : St) := hn.emit hQ.await
  have hn2 : Neat P E c (w.out ++ [.lit (signBytes E w.promptN)]) (Rowed P E c) (({ u.emit .await with input := rest } : St).emit .cursorOff) := hn1.emit hQ.off
  have hv : Neat P E c (w.out ++ [.lit (signBytes E w.promptN)]) (Rowed P E c) v := by
    cases he with
    | @enter k' rest' hi' hc' =>
      rw [hi] at hi'
      injection hi' with a1 a2
      injection a1 with a1
      subst a1 a2
      rw [hc'] at hc
      injection hc with hc
      obtain ⟨rfl, -⟩ := Prod.ext_iff.mp hc
      exact hn2
    | @interrupt k' rest' hi' hc' =>
      rw [hi] at hi'
      injection hi' with a1 a2
      injection a1 with a1
      subst a1 a2
      rw [hc'] at hc
      injection hc with hc
      obtain ⟨rfl, -⟩ := Prod.ext_iff.mp hc
      have h5 := hn2.clean
      obtain ⟨t, h3, h4⟩ := hn2.easy
      exact ⟨⟨⟨(by intro m hm; cases hm), (by intro m hm; cases hm), t.suffix, (by intro m hm; cases hm), t.pending, t.whole, t.modHist, t.clip⟩, h3, h4⟩, h5.of⟩
    | @eof k' rest' hi' hc' hul =>
      rw [hi] at hi'
      injection hi' with a1 a2
      injection a1 with a1
      subst a1 a2
      have hbuf : u.buf = [] := by
        rw [St.units_eq] at hul
        exact List.map_eq_nil_iff.mp (List.map_eq_nil_iff.mp hul)
      have hc0 : Cmd.call E .deleteOrAbort ({ u.emit .await with input := rest }.emit .cursorOff) =
          .ok ({ u.emit .await with input := rest }.emit .cursorOff, .abort) := by
        show cmdDeleteOrAbort E _ = _
        unfold cmdDeleteOrAbort
        rw [if_neg]
        · rfl
        · simp [St.len, St.emit, hbuf]
      rw [hc', hc0] at hc
      injection hc with hc
      obtain ⟨rfl, -⟩ := Prod.ext_iff.mp hc
      exact hn2
    | error _ => exact absurd rfl (hr _)
    | exhausted _ => exact absurd rfl (hr _)
  have h2 : Clean P E (w.out ++ [.lit (signBytes E w.promptN)]) (Rowed P E c) s1 := by
    have hv1 : Neat P E c (w.out ++ [.lit (signBytes E w.promptN)]) (Rowed P E c) (v.emit .cursorOn) := hv.emit hQ.on
    cases hs : v.suffix with
    | none =>
      rw [hs] at h1
      injection h1 with h1
      rw [← h1]
      exact hv1.clean
    | some y =>
      rw [hs] at h1
      have hq : Neat P E c (w.out ++ [.lit (signBytes E w.promptN)]) (Rowed P E c) { v.emit .cursorOn with suffix := none } := by
        obtain ⟨⟨t, h3, h4⟩, h5, h6⟩ := hv1
        exact ⟨⟨⟨t.built, t.line, (by show Spec.Over P []; intro m hm; rw [runesOf_nil] at hm; cases hm), t.undoes, t.pending, t.whole, t.modHist, t.clip⟩, h3, h4⟩, h5, (by intro m hm; cases hm)⟩
      exact ((repaintNoSuffix_neat hS ho.plain hpr hQ hq).ok h1).clean
  obtain ⟨ts, e, hts⟩ := h2.out
  exact ⟨ts, by show s1.out ++ _ = _; rw [e]; simp, hts⟩

/-! ## The terminal -/

theorem newline_row (v : Vt) (h : v.row < v.height) : v.newline.row < v.newline.height := by
  unfold Vt.newline
  split
  · assumption
  · exact h

theorem newline_lifted {v : Vt} (h : v.row < v.height) : Lifted v v.newline 1 := by
  intro k hk
  unfold Vt.newline
  split
  · show v.cells (v.row + 1 - (1 + k)) = _
    rw [show v.row + 1 - (1 + k) = v.row - k by omega]
  · funext x
    show (if v.row - (1 + k) < v.height - 1 then v.cells (v.row - (1 + k) + 1) x else none) = _
    rw [if_pos (by omega), show v.row - (1 + k) + 1 = v.row - k by omega]

theorem Spec.Lifted.trans {v v1 v2 : Vt} {d e : Int} (h1 : Lifted v v1 d) (h2 : Lifted v1 v2 e) (hd : 0 ≤ d) : Lifted v v2 (e + d) := by
  intro k hk
  rw [show e + d + k = e + (d + k) by omega, h2 (d + k) (by omega), h1 k hk]

theorem Spec.Lifted.level {v v1 v2 : Vt} {d : Int} (h1 : Lifted v v1 d) (h2 : Level v1 v2) (hd : 0 < d) : Lifted v v2 d := by
  intro k hk
  rw [h2.row, h2.others _ (by omega), h1 k hk]

theorem Spec.Lifted.raised {S : Sign} {v v' : Vt} {d : Int} (h : Lifted v v' d) : Raised S v v' d := fun k hk _ => h k hk

theorem Spec.Raised.trans {S : Sign} {v v1 v2 : Vt} {d e : Int} (h1 : Raised S v v1 d) (h2 : Raised S v1 v2 e) (hd : 0 ≤ d) :
    Raised S v v2 (e + d) := by
  intro k hk hs
  rw [show e + d + k = e + (d + k) by omega, h2 (d + k) (by omega) (hs.imp id fun h => by omega), h1 k hk hs]

theorem drop_range (S : Sign) : 0 ≤ S.drop ∧ S.drop ≤ 1 := by
  unfold Sign.drop
  split <;> decide

theorem drop_cases (S : Sign) : S.drop = 0 ∨ S.drop = 1 := by
  unfold Sign.drop
  split
  · exact .inr rfl
  · exact .inl rfl

/-- The rows above the prompt. -/
theorem base_raised (S : Sign) {v u : Vt} (hv : v.row < v.height) (h : Level (S.base v) u) : Raised S v u S.drop := by
  unfold Sign.base at h
  unfold Sign.drop
  cases hd : S.down with
  | true =>
    rw [hd] at h
    exact Lifted.raised ((newline_lifted hv).level h (by decide))
  | false =>
    rw [hd] at h
    intro k hk hs
    rw [hd] at hs
    have hs : 1 ≤ k := hs.resolve_left (by decide)
    have hl : Level v u := h
    show u.cells (u.row - (0 + k)) = _
    rw [hl.row, hl.others _ (by omega), Int.zero_add]

theorem base_width (S : Sign) (v : Vt) : (S.base v).width = v.width := by
  unfold Sign.base
  split
  · exact newline_width v
  · rfl

theorem base_row (S : Sign) {v : Vt} (h : v.row < v.height) : (S.base v).row < (S.base v).height := by
  unfold Sign.base
  split
  · exact newline_row v h
  · exact h

/-- Ordinary output, as the terminal takes it. -/
theorem Spec.Rowed.simple {S : Sign} {W : Int} (hS : S.Of E adv W) (hW : S.columns E.cfg < W) {t : Tok}
    (h : Rowed (fun r => Plain E.cfg r ∧ isScalar r = true) E (S.columns E.cfg) t) : Simple E adv W t := by
  rcases h with h | ⟨n, rfl⟩
  · cases t with
    | lit b =>
      rcases h with h | h | h
      · exact .inl (.inl h)
      · exact .inl (.inr (.inl h))
      · exact .inl (.inr (.inr (.inl h)))
    | gotoCol n =>
      have h : n = S.columns E.cfg + 1 := h
      have := hS.nonneg
      exact ⟨by omega, by omega⟩
    | glyph m => obtain ⟨r, h1, e⟩ := h; exact .inl ⟨r, h1.1, h1.2, e⟩
    | _ => trivial
  · exact .inr (hS.text _ (signAgain_text E n))

/-- **The rows during a call**: the prompt goes to its row, and everything else stays there. -/
theorem call_rows {S : Sign} (hA : AgreesPlain E.cfg adv) (hc1 : Sgr E.predictColor.1) (hc2 : Sgr E.predictColor.2) {v : Vt}
    (hS : S.Of E adv v.width) (hW : S.columns E.cfg < v.width) {n : Nat} {ts : List Tok}
    (ht : ∀ t ∈ ts, Rowed (fun r => Plain E.cfg r ∧ isScalar r = true) E (S.columns E.cfg) t)
    (hm : v.mode = .ground) (hv : 0 ≤ v.col) (hd : S.down = true ∨ v.col = 0)
    (hf : (Row.run E.cfg (blur E adv v.width) { col := v.col, cells := fun _ => anything, high := 0 } (.lit (signBytes E n) :: ts)).high ≤ v.width) :
    Level (S.base v) (v.run adv (bytesOf E.cfg (.lit (signBytes E n) :: ts))) ∧
      Prompted S E.cfg adv (v.run adv (bytesOf E.cfg (.lit (signBytes E n) :: ts))) ∧
      Mirrors adv (Row.run E.cfg (blur E adv v.width) { col := v.col, cells := fun _ => anything, high := 0 } (.lit (signBytes E n) :: ts))
        (v.run adv (bytesOf E.cfg (.lit (signBytes E n) :: ts))) := by
  have h0 := hS.nonneg
  have hs : ∀ t ∈ ts, Simple E adv v.width t := fun t h => (ht t h).simple hS hW
  have hs0 : Simple E adv v.width (.lit (signBytes E n)) := .inr (hS.text _ (signBytes_text E n))
  have hsa : ∀ t ∈ .lit (signBytes E n) :: ts, Simple E adv v.width t := by
    intro t h
    rcases List.mem_cons.mp h with rfl | h
    · exact hs0
    · exact hs t h
  have hrow : Mirrors adv { col := v.col, cells := fun _ => anything, high := 0 } v := ⟨hm, rfl, hv, fun _ => Or.inl rfl⟩
  have hmir := Mirrors.run hA hc1 hc2 (by omega) hsa hrow rfl hf
  obtain ⟨rs, h1, h2⟩ := Mirrors.receive hA hc1 hc2 (by omega) hs0
  obtain ⟨a1, a2⟩ := hangs_prompted (hS.first n v hm rfl hv hd)
  have e1 : v.run adv (signBytes E n) = v.feed adv rs := reads_run h1 v
  rw [e1] at a1 a2
  have hf1 := Int.le_trans (row_high_run ts _) hf
  obtain ⟨b1, b2⟩ := rowed_run hA hc1 hc2 hS hW ht hs (h2 _ v hrow rfl hf1) (feed_width _ _) hf a2
  have hrun : v.run adv (bytesOf E.cfg (.lit (signBytes E n) :: ts)) = (v.feed adv rs).run adv (ts.flatMap (Tok.bytes E.cfg)) := by
    unfold bytesOf
    rw [List.flatMap_cons, h1.run]
  rw [hrun]
  refine ⟨a1.trans b1, b2, ?_⟩
  rw [← hrun]
  exact hmir

/-- What follows when a call ends with a key: the line feed. -/
theorem farewell_reads {e : RLErr} (he : ∀ x, e ≠ .tty x) : ∃ rs, Reads (bytesOf E.cfg (farewell none e)) rs := by
  have hbytes : bytesOf E.cfg (farewell none e) = [0x0A] ++ (Tok.cursorOn).bytes E.cfg := by
    cases e with
    | tty x => exact absurd rfl (he x)
    | _ => rfl
  rw [hbytes]
  exact ⟨_, (Reads.ascii (bs := [0x0A]) (by decide)).append (((reads_csi (ps := [0x3F, 0x32, 0x35]) (f := 0x68) (by decide) (by decide)).append
      (reads_csi (ps := []) (f := 0x73) (by decide) (by decide))).append
      (reads_csi (ps := []) (f := 0x75) (by decide) (by decide)))⟩

theorem farewell_run {v : Vt} (hm : v.mode = .ground) {e : RLErr} (he : ∀ x, e ≠ .tty x) :
    (v.run adv (bytesOf E.cfg (farewell none e))).cells = v.newline.cells ∧ (v.run adv (bytesOf E.cfg (farewell none e))).row = v.newline.row ∧
      (v.run adv (bytesOf E.cfg (farewell none e))).col = 0 ∧ (v.run adv (bytesOf E.cfg (farewell none e))).mode = .ground ∧
      (v.run adv (bytesOf E.cfg (farewell none e))).width = v.width ∧ (v.run adv (bytesOf E.cfg (farewell none e))).height = v.newline.height := by
  have hbytes : bytesOf E.cfg (farewell none e) = [0x0A] ++ (Tok.cursorOn).bytes E.cfg := by
    cases e with
    | tty x => exact absurd rfl (he x)
    | _ => rfl
  have e0 : v.receive adv 0x0A = v.newline := by unfold Vt.receive; rw [hm]; rfl
  have hr : Reads ((Tok.cursorOn).bytes E.cfg) _ := ((reads_csi (ps := [0x3F, 0x32, 0x35]) (f := 0x68) (by decide) (by decide)).append
      (reads_csi (ps := []) (f := 0x73) (by decide) (by decide))).append
      (reads_csi (ps := []) (f := 0x75) (by decide) (by decide))
  have hrun : v.run adv (bytesOf E.cfg (farewell none e)) = v.newline.feed adv ([27, 91] ++ [(63 : UInt8), 50, 53].map UInt8.toNat ++ [UInt8.toNat 104] ++
      ([27, 91] ++ ([] : Bytes).map UInt8.toNat ++ [UInt8.toNat 115]) ++ ([27, 91] ++ ([] : Bytes).map UInt8.toNat ++ [UInt8.toNat 117])) := by
    rw [hbytes, (Reads.ascii (bs := [0x0A]) (by decide)).run, ← List.append_nil ((Tok.cursorOn).bytes E.cfg), hr.run]
    unfold Vt.run
    rw [runesOf_nil]
    show (v.receive adv 0x0A).feed adv _ = _
    rw [e0]
  have hu : Unmoved v.newline (v.run adv (bytesOf E.cfg (farewell none e))) := by
    have hm' : v.newline.mode = .ground := by rw [newline_mode]; exact hm
    rw [hrun, feed_append v.newline (_ ++ _ ++ _ ++ (_ ++ _ ++ _)) (_ ++ _ ++ _), feed_append v.newline (_ ++ _ ++ _) (_ ++ _ ++ _), feed_csi hm' (by decide) (by decide) (by decide),
      feed_csi (v := v.newline.control _ _) rfl (by decide) (by decide) (by decide),
      feed_csi (v := (v.newline.control _ _).control _ _) rfl (by decide) (by decide) (by decide)]
    exact ⟨rfl, rfl, rfl, rfl, rfl, rfl⟩
  exact ⟨hu.cells, hu.row, hu.col.trans (newline_col v), hu.mode, hu.width.trans (newline_width v), hu.height⟩

end Readline
